import Verif.Lemmas.Wilson
import Verif.Lemmas.Decay

/-! The two random walks terminate with probability one on a connected graph. -/

set_option linter.unusedSectionVars false

namespace Verif.Model
open Verif Verif.Spec Dist
variable {n : ℕ}

open Classical in
/-- indicator of a loop that is not finished -/
noncomputable def unf {α : Type*} : Outcome (Option α) → ℝ := fun o => if o = .ok none then 1 else 0

theorem unf_le_one {α : Type*} (o : Outcome (Option α)) : unf o ≤ 1 := by unfold unf; split <;> simp
theorem unf_nonneg {α : Type*} (o : Outcome (Option α)) : 0 ≤ unf o := by unfold unf; split <;> simp

theorem E_le_one {α : Type*} {d : Dist ℝ α} (hd : Nonneg d) (hm : d.mass = 1) {f : α → ℝ} (hf : ∀ a, f a ≤ 1) :
    d.E f ≤ 1 := by
  have : 0 ≤ d.E fun a => 1 - f a := E_nonneg hd fun a => by linarith [hf a]
  have e : (d.E fun a => 1 - f a) + d.E f = d.mass := by
    rw [← E_add]; simp [mass]
  linarith

/-- Step of a loop in terms of the probability of not being finished. -/
theorem unf_step {σ α : Type*} {I : σ → Prop} {step : Dist ℝ (Outcome σ)} {k : σ → Dist ℝ (Outcome (Option α))}
    (hd : Nonneg step) (hm : step.mass = 1) (hk : ∀ a, Nonneg (k a)) (hI : ∀ o, step.Possible o → ∃ t, o = .ok t ∧ I t)
    {s' : σ} {w ε c : ℝ} (hs' : (.ok s', w) ∈ step) (hI' : I s') (hw : ε ≤ w)
    (hc : ∀ t, I t → (k t).E unf ≤ c) : (step.andThen k).E unf ≤ ε * (k s').E unf + (1 - ε) * c := by
  have hE : (step.andThen k).E unf = step.E fun o => match o with
      | .ok t => (k t).E unf
      | .raise _ => 0 := by
    rw [andThen, E_bind]
    refine E_congr ?_
    intro o w _
    cases o with
    | ok a => rfl
    | raise e => simp [unf]
  rw [hE]
  refine (E_le_of_mem hd hm (c := c) ?_ hs').trans ?_
  · intro o ho
    obtain ⟨t, rfl, ht⟩ := hI o ho
    exact hc t ht
  · have := hc s' hI'
    simp only
    nlinarith

/-- every node of a connected graph with two nodes has a neighbour -/
theorem adj_ne_nil {es : List (Fin n × Fin n)} {adj : Fin n → List (Fin n)} (hadj : NbrsOf es adj)
    (hG : (graphOf es).Connected) (hn : 2 ≤ n) (v : Fin n) : adj v ≠ [] := by
  have : Nontrivial (Fin n) := Fin.nontrivial_iff_two_le.2 hn
  obtain ⟨u, hu⟩ := hG.preconnected.exists_adj_of_nontrivial v
  have := (hadj v u).2 (graphOf_adj.1 hu).2
  intro h; rw [h] at this; simp at this

/-- number of neighbours, all nodes together -/
def degSum (adj : Fin n → List (Fin n)) : ℕ := ∑ v, (adj v).length

theorem len_le_degSum (adj : Fin n → List (Fin n)) (v : Fin n) : (adj v).length ≤ degSum adj :=
  Finset.single_le_sum (f := fun v => (adj v).length) (fun _ _ => Nat.zero_le _) (Finset.mem_univ v)

/-- lower bound on the weight of a progress -/
noncomputable def epsOf (adj : Fin n → List (Fin n)) : ℝ := 1 / ((degSum adj + 1 : ℕ) : ℝ) * (1 / ((n + 1 : ℕ) : ℝ))

theorem epsOf_pos (adj : Fin n → List (Fin n)) : 0 < epsOf adj := by unfold epsOf; positivity

theorem one_div_nat_le {a b : ℕ} (ha : 0 < a) (h : a ≤ b) : 1 / ((b + 1 : ℕ) : ℝ) ≤ 1 / (a : ℝ) := by
  apply one_div_le_one_div_of_le
  · exact_mod_cast ha
  · exact_mod_cast (by omega : a ≤ b + 1)

theorem one_div_nat_le_one (b : ℕ) : 1 / ((b + 1 : ℕ) : ℝ) ≤ 1 := by
  rw [div_le_one (by positivity)]; push_cast; linarith [(Nat.cast_nonneg b : (0:ℝ) ≤ b)]

theorem epsOf_le_one (adj : Fin n → List (Fin n)) : epsOf adj ≤ 1 :=
  mul_le_one₀ (one_div_nat_le_one _) (by positivity) (one_div_nat_le_one _)

theorem epsOf_le (adj : Fin n → List (Fin n)) {v u : Fin n} (h : u ∈ adj v) :
    epsOf adj ≤ 1 / ((adj v).length : ℝ) := by
  refine (mul_le_of_le_one_right (by positivity) (one_div_nat_le_one _)).trans ?_
  exact one_div_nat_le (List.length_pos_of_mem h) (len_le_degSum adj v)

theorem epsOf_le' (adj : Fin n → List (Fin n)) {v u : Fin n} (h : u ∈ adj v) {l : List (Fin n)} (hl : l ≠ [])
    (hln : l.length ≤ n) : epsOf adj ≤ 1 / ((adj v).length : ℝ) * (1 / (l.length : ℝ)) := by
  unfold epsOf
  exact mul_le_mul (one_div_nat_le (List.length_pos_of_mem h) (len_le_degSum adj v))
    (one_div_nat_le (List.length_pos_of_ne_nil hl) hln) (by positivity) (by positivity)

variable {es : List (Fin n × Fin n)} {adj : Fin n → List (Fin n)} {root : Fin n}

/-- bound on distances -/
noncomputable def maxDist (es : List (Fin n × Fin n)) : ℕ := ∑ a, ∑ b, (graphOf es).dist a b

/-! ### Aldous-Broder -/

/-- potential -/
noncomputable def abPhi (es : List (Fin n × Fin n)) (s : ABSt n) : ℕ :=
  (n - s.nb) * (maxDist es + 1) + distTo (graphOf es) {v | s.visited v = false} s.n0

theorem abInv_unvisited {s : ABSt n} (hs : ABInv es root s) (h : s.nb < n) :
    ({v | s.visited v = false} : Set (Fin n)).Nonempty := by
  by_contra h0
  have : ∀ v, s.visited v = true := by
    intro v
    by_contra hv
    exact h0 ⟨v, by simpa using hv⟩
  have h1 := hs.nb
  simp [this] at h1
  omega

theorem abInv_nb_le {s : ABSt n} (hs : ABInv es root s) : s.nb ≤ n := by
  rw [hs.nb]; exact (Finset.card_le_univ _).trans (by simp)

/-- one step as a random program -/
noncomputable def abStep (adj : Fin n → List (Fin n)) (s : ABSt n) : Dist ℝ (Outcome (ABSt n)) :=
  (choiceO (adj s.n0)).andThen fun n1 => Dist.ret (.ok (abMove s n1))

theorem abLoop_nonneg : ∀ fuel (s : ABSt n), Nonneg (abLoop adj fuel s) := by
  intro fuel
  induction fuel with
  | zero => intro s; rw [abLoop]; split <;> exact Nonneg.ret _
  | succ fuel ih =>
    intro s; rw [abLoop]; split
    · exact andThen_nonneg (choiceO_nonneg _) fun _ => ih _
    · exact Nonneg.ret _

theorem abLoop_mass : ∀ fuel (s : ABSt n), (abLoop adj fuel s).mass = 1 := by
  intro fuel
  induction fuel with
  | zero => intro s; rw [abLoop]; split <;> simp [mass]
  | succ fuel ih =>
    intro s; rw [abLoop]; split
    · exact andThen_mass (choiceO_mass _) fun _ => ih _
    · simp [mass]

theorem abLoop_E {s : ABSt n} (h : s.nb < n) (fuel : ℕ) :
    (abLoop adj (fuel + 1) s).E unf = ((abStep adj s).andThen (abLoop adj fuel)).E unf := by
  rw [abLoop, if_pos h, andThen, E_bind, andThen, E_bind, abStep, andThen, E_bind]
  refine E_congr ?_
  intro o w _
  cases o with
  | ok a => simp
  | raise e => simp

theorem abLoop_decay (hadj : NbrsOf es adj) (hG : (graphOf es).Connected) (m : ℕ) (s : ABSt n)
    (hs : ABInv es root s) :
    (abLoop adj (m * ((n + 1) * (maxDist es + 1) + 1)) s).E unf
      ≤ (1 - epsOf adj ^ ((n + 1) * (maxDist es + 1) + 1)) ^ m := by
  refine geom_decay (σ := ABSt n) (I := fun s => ABInv es root s ∧ s.nb ≤ n) (done := fun s => ¬ s.nb < n)
    (φ := fun s => if s.nb < n then abPhi es s else 0)
    (epsOf_pos adj) (epsOf_le_one adj)
    (u := fun f s => (abLoop adj f s).E unf) ?_ ?_ ?_ ?_ m s ⟨hs, abInv_nb_le hs⟩
  · intro f s; exact E_le_one (abLoop_nonneg f s) (abLoop_mass f s) unf_le_one
  · intro f s hd
    cases f <;> rw [abLoop, if_neg hd] <;> simp [unf]
  · rintro s ⟨hs, hsn⟩ hd
    have hlt : s.nb < n := by simpa using hd
    have hn : 2 ≤ n := by have := hs.grown.len; rw [← hs.nb] at this; omega
    obtain ⟨n1, h1, h2⟩ := exists_closer hG (abInv_unvisited hs hlt) (v := s.n0) (by simp [hs.here])
    have hmem : n1 ∈ adj s.n0 := (hadj _ _).2 (graphOf_adj.1 h1).2
    have hI : ABInv es root (abMove s n1) := hs.move ((hadj _ _).1 hmem)
    refine ⟨abMove s n1, ⟨hI, abInv_nb_le hI⟩, ?_, ?_⟩
    · by_cases hlt' : (abMove s n1).nb < n
      · right
        simp only [if_pos hlt', if_pos hlt]
        have hb := distTo_bound (graphOf es) (abInv_unvisited hI hlt') (abMove s n1).n0
        change _ ≤ maxDist es at hb
        unfold abPhi
        unfold abMove at hb hlt' ⊢
        by_cases hv : s.visited n1 = true
        · simp only [if_pos hv] at hb hlt' ⊢
          omega
        · simp only [if_neg hv] at hb hlt' ⊢
          obtain ⟨k, hk⟩ : ∃ k, n - s.nb = k + 1 := ⟨n - s.nb - 1, by omega⟩
          rw [hk, show n - (s.nb + 1) = k by omega, add_mul, one_mul]
          omega
      · left; exact hlt'
    · intro f c hc h
      change (abLoop adj (f + 1) s).E unf ≤ _
      rw [abLoop_E hlt]
      refine unf_step (I := fun s => ABInv es root s ∧ s.nb ≤ n) (andThen_nonneg (choiceO_nonneg _) fun _ => Nonneg.ret _)
        (andThen_mass (choiceO_mass _) fun _ => by simp [mass]) (fun _ => abLoop_nonneg _ _) ?_
        (mem_andThen (mem_choiceO hmem) (by simp [ret] : (_, (1:ℝ)) ∈ _)) ⟨hI, abInv_nb_le hI⟩ ?_ h
      · intro o ho
        rcases possible_andThen.1 ho with ⟨v, h3, h4⟩ | ⟨e, h3, h4⟩
        · rw [Possible.ret_iff] at h4
          have := hs.move ((hadj _ _).1 (possible_choiceO_ok.1 h3))
          exact ⟨_, h4, this, abInv_nb_le this⟩
        · exact absurd (possible_choiceO_raise.1 h3).1 (adj_ne_nil hadj hG hn _)
      · rw [mul_one]; exact epsOf_le adj hmem
  · rintro s ⟨hs, hsn⟩
    split
    · rename_i hlt
      have hb := distTo_bound (graphOf es) (abInv_unvisited hs hlt) s.n0
      change _ ≤ maxDist es at hb
      unfold abPhi
      have : (n - s.nb) * (maxDist es + 1) ≤ n * (maxDist es + 1) := Nat.mul_le_mul_right _ (by omega)
      rw [add_mul, one_mul]; omega
    · omega

/-! ### Wilson -/

/-- distance to the tree; a walk that is in the tree (start of the first branch) counts as far -/
noncomputable def wDist (es : List (Fin n × Fin n)) (s : WSt n) : ℕ :=
  if s.state s.n0 = .tree then maxDist es + 2 else distTo (graphOf es) {v | s.state v = .tree} s.n0

noncomputable def wPhi (es : List (Fin n × Fin n)) (s : WSt n) : ℕ :=
  (n - s.nb) * (maxDist es + 3) + wDist es s

theorem wLoop_mass_aux (s : WSt n) : (wRestart s).mass = 1 ∧ Nonneg (wRestart s) := by
  unfold wRestart
  split
  · exact ⟨by simp [mass], Nonneg.ret _⟩
  · exact ⟨andThen_mass (choiceO_mass _) fun _ => by simp [mass],
      andThen_nonneg (choiceO_nonneg _) fun _ => Nonneg.ret _⟩

theorem wStep_mass (s : WSt n) : (wStep adj s).mass = 1 ∧ Nonneg (wStep adj s) := by
  have : ∀ (t : WSt n) n1, (wAfter t n1).mass = 1 ∧ Nonneg (wAfter t n1) := by
    intro t n1
    unfold wAfter
    split
    · exact ⟨by simp [mass], Nonneg.ret _⟩
    · split
      · exact wLoop_mass_aux _
      · exact ⟨by simp [mass], Nonneg.ret _⟩
  exact ⟨andThen_mass (choiceO_mass _) fun _ => (this _ _).1,
    andThen_nonneg (choiceO_nonneg _) fun _ => (this _ _).2⟩

theorem wLoop_mass : ∀ fuel (s : WSt n), (wLoop adj fuel s).mass = 1 ∧ Nonneg (wLoop adj fuel s) := by
  intro fuel
  induction fuel with
  | zero => intro s; rw [wLoop]; split <;> exact ⟨by simp [mass], Nonneg.ret _⟩
  | succ fuel ih =>
    intro s; rw [wLoop]; split
    · exact ⟨andThen_mass (wStep_mass s).1 fun _ => (ih _).1, andThen_nonneg (wStep_mass s).2 fun _ => (ih _).2⟩
    · exact ⟨by simp [mass], Nonneg.ret _⟩

theorem wInv_nb_le {s : WSt n} (hs : WInv es adj root s) : s.nb ≤ n := by
  rw [hs.1.nb]; exact (Finset.card_le_univ _).trans (by simp)

theorem wDist_le {s : WSt n} (hs : WInv es adj root s) : wDist es s ≤ maxDist es + 2 := by
  unfold wDist
  split
  · exact le_rfl
  · have := distTo_bound (graphOf es) (S := {v | s.state v = .tree}) ⟨root, mem_treeSet.1 hs.1.grown.root_mem⟩ s.n0
    change _ ≤ maxDist es at this
    omega

/-- From every state some outcome of one pass makes progress. -/
theorem wStep_progress (hadj : NbrsOf es adj) (hloop : ∀ v, v ∉ adj v) (hG : (graphOf es).Connected) {s : WSt n}
    (hs : WInv es adj root s) (hlt : s.nb < n) :
    ∃ s' w, (.ok s', w) ∈ wStep adj s ∧ epsOf adj ≤ w ∧ WInv es adj root s' ∧ (¬ s'.nb < n ∨ wPhi es s' < wPhi es s) := by
  have hn : 2 ≤ n := by have := hs.1.grown.len; rw [← hs.1.nb] at this; omega
  obtain ⟨h, q, w⟩ := hs.2 hlt
  have hroot := mem_treeSet.1 hs.1.grown.root_mem
  -- the neighbour to visit
  obtain ⟨n1, hmem, hcl⟩ : ∃ n1, n1 ∈ adj s.n0 ∧ (s.state n1 ≠ .tree →
      distTo (graphOf es) {v | s.state v = .tree} n1 < wDist es s) := by
    unfold wDist
    by_cases ht : s.state s.n0 = .tree
    · obtain ⟨n1, h1⟩ := List.exists_mem_of_ne_nil _ (adj_ne_nil hadj hG hn s.n0)
      refine ⟨n1, h1, fun _ => ?_⟩
      rw [if_pos ht]
      have := distTo_bound (graphOf es) (S := {v | s.state v = .tree}) ⟨root, hroot⟩ n1
      change _ ≤ maxDist es at this
      omega
    · obtain ⟨n1, h1, h2⟩ := exists_closer hG (S := {v | s.state v = .tree}) ⟨root, hroot⟩ (v := s.n0) ht
      exact ⟨n1, (hadj _ _).2 (graphOf_adj.1 h1).2, fun _ => by rw [if_neg ht]; exact h2⟩
  by_cases ht : s.state n1 = .tree
  · obtain ⟨e1, e2, e4, e3⟩ := w.hit hadj hloop hs.1 hmem ht
    have hphi : ∀ s' : WSt n, WInv es adj root s' → s'.nb = (wAttach s n1).nb → ¬ s'.nb < n ∨ wPhi es s' < wPhi es s := by
      intro s' hI hnb
      by_cases hlt' : s'.nb < n
      · right
        have := wDist_le hI
        unfold wPhi
        obtain ⟨k, hk⟩ : ∃ k, n - s.nb = k + 1 := ⟨n - s.nb - 1, by omega⟩
        have h3 : (n - s'.nb) * (maxDist es + 3) ≤ k * (maxDist es + 3) := Nat.mul_le_mul_right _ (by omega)
        rw [hk, add_mul, one_mul]; omega
      · left; exact hlt'
    by_cases h0 : wNew (wAttach s n1) = []
    · have hp : (.ok (wAttach s n1), 1 / ((adj s.n0).length : ℝ) * 1) ∈ wStep adj s := by
        refine mem_andThen (mem_choiceO hmem) ?_
        rw [e1, wRestart, if_pos h0]; simp [ret]
      have hI : WInv es adj root (wAttach s n1) := by
        obtain ⟨t, h5, h6⟩ := wStep_possible hadj hloop (adj_ne_nil hadj hG hn _) hs hlt
          ⟨_, hp, by have := List.length_pos_of_mem hmem; positivity⟩
        cases h5; exact h6
      exact ⟨_, _, hp, by rw [mul_one]; exact epsOf_le adj hmem, hI, hphi _ hI rfl⟩
    · obtain ⟨v, hv⟩ := List.exists_mem_of_ne_nil _ h0
      have hp : (.ok { wAttach s n1 with n0 := v, path := [v] },
          1 / ((adj s.n0).length : ℝ) * (1 / ((wNew (wAttach s n1)).length : ℝ) * 1)) ∈ wStep adj s := by
        refine mem_andThen (mem_choiceO hmem) ?_
        rw [e1, wRestart, if_neg h0]
        exact mem_andThen (mem_choiceO hv) (by simp [ret])
      have hI : WInv es adj root { wAttach s n1 with n0 := v, path := [v] } := by
        obtain ⟨t, h5, h6⟩ := wStep_possible hadj hloop (adj_ne_nil hadj hG hn _) hs hlt
          ⟨_, hp, by have := List.length_pos_of_mem hmem; have := List.length_pos_of_mem hv; positivity⟩
        cases h5; exact h6
      refine ⟨_, _, hp, ?_, hI, hphi _ hI rfl⟩
      rw [mul_one]
      refine epsOf_le' adj hmem h0 ?_
      unfold wNew
      exact (List.length_filter_le _ _).trans (by simp)
  · obtain ⟨s', e1, e2, e3, e4, e5, e6⟩ := w.pass hroot hmem ht
    have hp : (.ok s', 1 / ((adj s.n0).length : ℝ) * 1) ∈ wStep adj s := by
      refine mem_andThen (mem_choiceO hmem) ?_
      rw [e1]; simp [ret]
    have hI : WInv es adj root s' := by
      obtain ⟨t, h5, h6⟩ := wStep_possible hadj hloop (adj_ne_nil hadj hG hn _) hs hlt
        ⟨_, hp, by have := List.length_pos_of_mem hmem; positivity⟩
      cases h5; exact h6
    refine ⟨_, _, hp, by rw [mul_one]; exact epsOf_le adj hmem, hI, Or.inr ?_⟩
    have hset : ({v | s'.state v = .tree} : Set (Fin n)) = {v | s.state v = .tree} := by
      ext v
      have : v ∈ treeSet s' ↔ v ∈ treeSet s := by rw [e3]
      rw [mem_treeSet, mem_treeSet] at this
      exact this
    have hnt : s'.state s'.n0 ≠ .tree := by
      intro h'
      have : s'.n0 ∈ treeSet s' := mem_treeSet.2 h'
      rw [e3, mem_treeSet, e6] at this
      exact ht this
    have := hcl ht
    unfold wPhi
    rw [e4]
    have h7 : wDist es s' = distTo (graphOf es) {v | s.state v = .tree} n1 := by
      rw [wDist, if_neg hnt, hset, e6]
    omega

theorem wLoop_decay (hadj : NbrsOf es adj) (hloop : ∀ v, v ∉ adj v) (hG : (graphOf es).Connected) (m : ℕ) (s : WSt n)
    (hs : WInv es adj root s) :
    (wLoop adj (m * ((n + 1) * (maxDist es + 3) + 1)) s).E unf
      ≤ (1 - epsOf adj ^ ((n + 1) * (maxDist es + 3) + 1)) ^ m := by
  refine geom_decay (σ := WSt n) (I := WInv es adj root) (done := fun s => ¬ s.nb < n)
    (φ := wPhi es) (epsOf_pos adj) (epsOf_le_one adj)
    (u := fun f s => (wLoop adj f s).E unf) ?_ ?_ ?_ ?_ m s hs
  · intro f s; exact E_le_one (wLoop_mass f s).2 (wLoop_mass f s).1 unf_le_one
  · intro f s hd
    cases f <;> rw [wLoop, if_neg hd] <;> simp [unf]
  · intro s hs hd
    have hlt : s.nb < n := by simpa using hd
    have hn : 2 ≤ n := by have := hs.1.grown.len; rw [← hs.1.nb] at this; omega
    obtain ⟨s', w, h1, h2, h3, h4⟩ := wStep_progress hadj hloop hG hs hlt
    refine ⟨s', h3, h4, ?_⟩
    intro f c hc h
    change (wLoop adj (f + 1) s).E unf ≤ _
    rw [wLoop, if_pos hlt]
    exact unf_step (I := WInv es adj root) (wStep_mass s).2 (wStep_mass s).1 (fun _ => (wLoop_mass _ _).2)
      (fun o ho => wStep_possible hadj hloop (adj_ne_nil hadj hG hn _) hs hlt ho) h1 h3 h2 h
  · intro s hs
    have := wDist_le hs
    unfold wPhi
    have : (n - s.nb) * (maxDist es + 3) ≤ n * (maxDist es + 3) := Nat.mul_le_mul_right _ (by omega)
    rw [add_mul, one_mul]; omega

end Verif.Model
