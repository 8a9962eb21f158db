import Verif.Lemmas.RootTree

/-! Law of the Aldous-Broder walk. -/

set_option linter.unusedSectionVars false

namespace Verif.Model
open Verif Verif.Spec Verif.Dist Finset Filter Topology
variable {n : ℕ} {es : List (Fin n × Fin n)} {adj : Fin n → List (Fin n)}

/-- expectation over the walks with `N` steps from `x` (the start is not in the list) -/
noncomputable def walkE (adj : Fin n → List (Fin n)) : ℕ → Fin n → (List (Fin n) → ℝ) → ℝ
  | 0, _, F => F []
  | N + 1, x, F => 1 / ((adj x).length : ℝ) * ((adj x).map fun y => walkE adj N y fun l => F (y :: l)).sum

theorem map_sum_le {l : List (Fin n)} {f g : Fin n → ℝ} (h : ∀ v ∈ l, f v ≤ g v) : (l.map f).sum ≤ (l.map g).sum := by
  induction l with
  | nil => simp
  | cons a l ih =>
    simp only [List.map_cons, List.sum_cons]
    have h1 := h a (by simp)
    have h2 := ih fun v hv => h v (by simp [hv])
    linarith

/-- the walk moves along edges -/
theorem walkE_mono : ∀ (N : ℕ) (x : Fin n) {F G : List (Fin n) → ℝ}, (∀ l, (x :: l).IsChain (fun u v => v ∈ adj u) → l.length = N → F l ≤ G l) → walkE adj N x F ≤ walkE adj N x G
  | 0, x, F, G, h => h [] (by simp) rfl
  | N + 1, x, F, G, h => by
    rw [walkE, walkE]
    refine mul_le_mul_of_nonneg_left (map_sum_le fun y hy => walkE_mono N y fun l hl hN => ?_) (by positivity)
    exact h (y :: l) (by rw [List.isChain_cons_cons]; exact ⟨hy, hl⟩) (by simp [hN])

theorem walkE_congr (N : ℕ) (x : Fin n) {F G : List (Fin n) → ℝ} (h : ∀ l, (x :: l).IsChain (fun u v => v ∈ adj u) → l.length = N → F l = G l) :
    walkE adj N x F = walkE adj N x G :=
  le_antisymm (walkE_mono N x fun l h1 h2 => (h l h1 h2).le) (walkE_mono N x fun l h1 h2 => (h l h1 h2).ge)

theorem map_sum_mul (c : ℝ) (f : Fin n → ℝ) (l : List (Fin n)) : (l.map fun v => c * f v).sum = c * (l.map f).sum := by
  induction l with
  | nil => simp
  | cons a l ih => simp [ih, mul_add]

theorem map_sum_add (f g : Fin n → ℝ) (l : List (Fin n)) : (l.map fun v => f v + g v).sum = (l.map f).sum + (l.map g).sum := by
  induction l with
  | nil => simp
  | cons a l ih => simp [ih]; ring

theorem walkE_add : ∀ (N : ℕ) (x : Fin n) (F G : List (Fin n) → ℝ), walkE adj N x (fun l => F l + G l) = walkE adj N x F + walkE adj N x G
  | 0, x, F, G => rfl
  | N + 1, x, F, G => by
    rw [walkE, walkE, walkE, ← mul_add, ← map_sum_add]
    congr 3
    funext y
    exact walkE_add N y _ _

theorem walkE_mul : ∀ (N : ℕ) (x : Fin n) (c : ℝ) (F : List (Fin n) → ℝ), walkE adj N x (fun l => c * F l) = c * walkE adj N x F
  | 0, x, c, F => rfl
  | N + 1, x, c, F => by
    rw [walkE, walkE, mul_left_comm]
    congr 1
    rw [← map_sum_mul]
    congr 2
    funext y
    exact walkE_mul N y c _

theorem walkE_sum {ι : Type*} (S : Finset ι) (N : ℕ) (x : Fin n) (F : ι → List (Fin n) → ℝ) :
    walkE adj N x (fun l => ∑ i ∈ S, F i l) = ∑ i ∈ S, walkE adj N x (F i) := by
  classical
  induction S using Finset.induction_on with
  | empty => simpa using walkE_mul N x 0 (fun _ => (0 : ℝ))
  | insert a S ha ih => simp only [sum_insert ha, ← ih, ← walkE_add]

theorem walkE_const (hne : ∀ v, adj v ≠ []) : ∀ (N : ℕ) (x : Fin n) (c : ℝ), walkE adj N x (fun _ => c) = c
  | 0, x, c => rfl
  | N + 1, x, c => by
    rw [walkE]
    simp only [walkE_const hne N]
    have : ((adj x).length : ℝ) ≠ 0 := by exact_mod_cast (List.length_pos_of_ne_nil (hne x)).ne'
    simp only [List.map_const', List.sum_replicate, nsmul_eq_mul]
    field_simp

/-! ### the loop -/

/-- reward of a finished loop, and of one that is not -/
noncomputable def finS (φ : List (Fin n × Fin n) → ℝ) (c : ℝ) : Option (ABSt n) → ℝ
  | some s => φ s.edges
  | none => c

theorem abFold_done : ∀ (l : List (Fin n)) {s : ABSt n}, (∀ v, s.visited v = true) → (l.foldl abMove s).edges = s.edges ∧ (l.foldl abMove s).nb = s.nb
  | [], s, _ => ⟨rfl, rfl⟩
  | y :: l, s, h => by
    rw [List.foldl_cons]
    have h1 : abMove s y = { s with n0 := y } := by rw [abMove, if_pos (h y)]
    have := abFold_done l (s := abMove s y) (by rw [h1]; exact h)
    rw [h1] at this ⊢
    exact this

theorem abInv_all {root : Fin n} {s : ABSt n} (hs : ABInv es root s) (h : ¬ s.nb < n) (v : Fin n) : s.visited v = true := by
  have h1 : (Finset.univ.filter fun v => s.visited v = true) = univ := by
    rw [← card_eq_iff_eq_univ]
    refine le_antisymm (card_le_univ _) ?_
    rw [← hs.nb]; simpa using h
  have := mem_univ v
  rw [← h1] at this
  simpa using this

theorem abMove_n0 (s : ABSt n) (n1 : Fin n) : (abMove s n1).n0 = n1 := by unfold abMove; split <;> rfl

section
variable (hadj : NbrsOf es adj) (hnd : ∀ v, (adj v).Nodup) (hne : ∀ v, adj v ≠ [])
include hadj hnd hne

theorem abLoop_walk {root : Fin n} (φ : List (Fin n × Fin n) → ℝ) (c : ℝ) : ∀ (fuel : ℕ) (s : ABSt n), ABInv es root s →
    (abLoop adj fuel s).E (lift (finS φ c))
      = walkE adj fuel s.n0 fun l => if (l.foldl abMove s).nb < n then c else φ (l.foldl abMove s).edges := by
  intro fuel
  induction fuel with
  | zero =>
    intro s hs
    rw [abLoop, walkE]
    by_cases hlt : s.nb < n
    · rw [if_pos hlt, E_ret, List.foldl_nil, if_pos hlt]; rfl
    · rw [if_neg hlt, E_ret, List.foldl_nil, if_neg hlt]; rfl
  | succ fuel ih =>
    intro s hs
    by_cases hlt : s.nb < n
    · rw [abLoop, if_pos hlt, E_andThen, E_choiceO (hne _), walkE]
      congr 2
      refine List.map_congr_left fun y hy => ?_
      rw [ih _ (hs.move ((hadj _ _).1 hy)), abMove_n0]
      rfl
    · rw [abLoop, if_neg hlt, E_ret]
      have hv := abInv_all hs hlt
      rw [walkE_congr (G := fun _ => φ s.edges), walkE_const hne]
      · rfl
      · intro l _ _
        obtain ⟨h1, h2⟩ := abFold_done l hv
        rw [h2, if_neg hlt, h1]

/-! ### trees of walks -/

/-- the tree of a walk, the nodes not visited being completed with `f` -/
def comb : Fin n → List (Fin n) → (Fin n → Fin n) → Fin n → Fin n
  | _, [], f => f
  | x, y :: l, f => reroot x y (comb y l f)

theorem comb_RTree : ∀ (l : List (Fin n)) (x : Fin n) (f : Fin n → Fin n), (x :: l).IsChain (fun u v => v ∈ adj u) →
    RTree adj ((x :: l).getLast (by simp)) f → RTree adj x (comb x l f)
  | [], x, f, _, h => h
  | y :: l, x, f, hc, h => by
    rw [List.isChain_cons_cons] at hc
    exact RTree.reroot hadj (comb_RTree l y f hc.2 (by simpa using h)) hc.1

open Classical in
/-- the completed tree is uniform -/
theorem comb_uniform : ∀ (N : ℕ) (x : Fin n) (g : Fin n → Fin n), RTree adj x g →
    walkE adj N x (fun l => ∑ f ∈ rtrees adj ((x :: l).getLast (by simp)), if comb x l f = g then 1 else 0) = 1
  | 0, x, g, hg => by
    rw [walkE]
    have : (∑ f ∈ rtrees adj x, if f = g then (1 : ℝ) else 0) = 1 := by
      rw [sum_ite_eq', if_pos (show g ∈ rtrees adj x from mem_filter.2 ⟨mem_univ _, hg⟩)]
    exact this
  | N + 1, x, g, hg => by
    rw [walkE]
    have h1 : ∀ y ∈ adj x, walkE adj N y (fun l => ∑ f ∈ rtrees adj ((x :: y :: l).getLast (by simp)), if comb x (y :: l) f = g then (1 : ℝ) else 0)
        = ∑ h ∈ rtrees adj y, if reroot x y h = g then 1 else 0 := by
      intro y hy
      have h2 : walkE adj N y (fun l => ∑ f ∈ rtrees adj ((x :: y :: l).getLast (by simp)), if comb x (y :: l) f = g then (1 : ℝ) else 0)
          = walkE adj N y (fun l => ∑ h ∈ rtrees adj y, (if reroot x y h = g then 1 else 0)
              * ∑ f ∈ rtrees adj ((y :: l).getLast (by simp)), if comb y l f = h then 1 else 0) := by
        refine walkE_congr N y fun l hl _ => ?_
        simp only [mul_sum]
        rw [sum_comm]
        refine sum_congr rfl fun f hf => ?_
        have hf := (mem_filter.1 hf).2
        have hR := comb_RTree hadj hnd hne l y f hl (by simpa using hf)
        rw [sum_eq_single (comb y l f)]
        · rw [if_pos rfl, mul_one]; rfl
        · intro h _ hne
          rw [if_neg hne.symm, mul_zero]
        · intro h
          exact absurd (mem_filter.2 ⟨mem_univ _, hR⟩) h
      rw [h2, walkE_sum]
      refine sum_congr rfl fun h hh => ?_
      rw [walkE_mul, comb_uniform N y h (mem_filter.1 hh).2, mul_one]
    rw [List.map_congr_left h1, reroot_count hadj hnd hg]
    have : ((adj x).length : ℝ) ≠ 0 := by exact_mod_cast (List.length_pos_of_ne_nil (hne x)).ne'
    field_simp
end

/-- a run from a later state, compared with a fresh run from the same node -/
structure Sim (s0 s t : ABSt n) : Prop where
  n0 : s.n0 = t.n0
  vis : ∀ v, s.visited v = (s0.visited v || t.visited v)
  edge : ∀ u v, (u, v) ∈ t.edges → s0.visited v = false → (u, v) ∈ s.edges
  mono : ∀ e ∈ s0.edges, e ∈ s.edges

theorem Sim.init {s0 : ABSt n} (h : s0.visited s0.n0 = true) : Sim s0 s0 (abInit s0.n0) := by
  refine ⟨rfl, ?_, ?_, fun e he => he⟩
  · intro v
    by_cases hv : v = s0.n0
    · rw [hv, h]; simp
    · simp [abInit, hv]
  · intro u v h; simp [abInit] at h

theorem Sim.move {s0 s t : ABSt n} (h : Sim s0 s t) (y : Fin n) : Sim s0 (abMove s y) (abMove t y) := by
  have hy := h.vis y
  unfold abMove
  by_cases h1 : t.visited y = true
  · rw [if_pos h1, if_pos (by rw [hy, h1]; simp)]
    exact ⟨rfl, h.vis, h.edge, h.mono⟩
  · rw [if_neg h1]
    have h1' : t.visited y = false := by simpa using h1
    by_cases h2 : s0.visited y = true
    · rw [if_pos (by rw [hy, h2]; simp)]
      refine ⟨rfl, ?_, ?_, h.mono⟩
      · intro v
        by_cases hv : v = y
        · rw [hv]; simp [hy, h2]
        · simp [hv, h.vis v]
      · intro u v he hv
        simp only [List.mem_append, List.mem_singleton, Prod.mk.injEq] at he
        rcases he with he | ⟨-, rfl⟩
        · exact h.edge u v he hv
        · rw [h2] at hv; cases hv
    · have h2' : s0.visited y = false := by simpa using h2
      rw [if_neg (by rw [hy, h1', h2']; simp)]
      refine ⟨rfl, ?_, ?_, ?_⟩
      · intro v
        by_cases hv : v = y
        · rw [hv]; simp
        · simp [hv, h.vis v]
      · intro u v he hv
        simp only [List.mem_append, List.mem_singleton] at he ⊢
        rcases he with he | he
        · exact Or.inl (h.edge u v he hv)
        · right; rw [he, h.n0]
      · intro e he
        simp only [List.mem_append]
        exact Or.inl (h.mono e he)

theorem Sim.fold {s0 : ABSt n} : ∀ (l : List (Fin n)) {s t : ABSt n}, Sim s0 s t → Sim s0 (l.foldl abMove s) (l.foldl abMove t)
  | [], _, _, h => h
  | y :: l, _, _, h => Sim.fold l (h.move y)

/-- the edges recorded are the first entrances -/
theorem comb_edge : ∀ (l : List (Fin n)) (x : Fin n) (f : Fin n → Fin n) (v : Fin n), v ≠ x →
    (l.foldl abMove (abInit x)).visited v = true → (comb x l f v, v) ∈ (l.foldl abMove (abInit x)).edges
  | [], x, f, v, hv, h => by simp [abInit, hv] at h
  | y :: l, x, f, v, hv, h => by
    have hs : Sim (abMove (abInit x) y) (l.foldl abMove (abMove (abInit x) y)) (l.foldl abMove (abInit y)) := by
      have h1 : (abMove (abInit x) y).visited (abMove (abInit x) y).n0 = true := by
        rw [abMove_n0]; unfold abMove; split <;> simp_all
      have := Sim.fold l (Sim.init h1)
      rwa [abMove_n0] at this
    rw [List.foldl_cons] at h ⊢
    rw [comb, reroot, if_neg hv]
    by_cases hvy : v = y
    · rw [if_pos hvy, hvy]
      apply hs.mono
      have hyx : y ≠ x := hvy ▸ hv
      rw [abMove, if_neg (by simp [abInit, hyx])]
      simp [abInit]
    · rw [if_neg hvy]
      have h0 : (abMove (abInit x) y).visited v = false := by
        unfold abMove
        split <;> simp [abInit, hv, hvy]
      refine hs.edge _ _ (comb_edge l y f v hvy ?_) h0
      have := hs.vis v
      rw [h0, Bool.false_or] at this
      rw [← this]; exact h

theorem abInv_fold (hadj : NbrsOf es adj) {root : Fin n} : ∀ (l : List (Fin n)) {s : ABSt n}, ABInv es root s → (s.n0 :: l).IsChain (fun u v => v ∈ adj u) →
    ABInv es root (l.foldl abMove s)
  | [], _, h, _ => h
  | y :: l, s, h, hc => by
    rw [List.isChain_cons_cons] at hc
    exact abInv_fold hadj l (h.move ((hadj _ _).1 hc.1)) (by rw [abMove_n0]; exact hc.2)

section
variable (hadj : NbrsOf es adj) (hnd : ∀ v, (adj v).Nodup) (hne : ∀ v, adj v ≠ [])
include hadj hnd hne

open Classical in
theorem abLoop_close {H : SimpleGraph (Fin n)} (hH : H ≤ graphOf es) (hT : H.IsTree) (x : Fin n) (fuel : ℕ) :
    |(abLoop adj fuel (abInit x)).E (lift (finS (fun t => if graphOf t = H then 1 else 0) 0))
      - 1 / (Nat.card {H : SimpleGraph (Fin n) // H ≤ graphOf es ∧ H.IsTree} : ℝ)| ≤ (abLoop adj fuel (abInit x)).E unf := by
  obtain ⟨g, hg, hgH⟩ := exists_RTree hadj hT hH x
  have hcard := card_rtrees hadj (es := es)
  set T := Nat.card {H : SimpleGraph (Fin n) // H ≤ graphOf es ∧ H.IsTree} with hTdef
  have hTpos : (0 : ℝ) < T := by
    have : 0 < T := by
      rw [← hcard x]
      exact card_pos.2 ⟨g, mem_filter.2 ⟨mem_univ _, hg⟩⟩
    exact_mod_cast this
  have hu : (unf : Outcome (Option (ABSt n)) → ℝ) = lift (finS (fun _ => 0) 1) := by
    rw [unf_eq]
    congr 1
    funext o
    cases o <;> rfl
  have hI := ABInv.init es x
  rw [hu, abLoop_walk hadj hnd hne _ _ fuel _ hI, abLoop_walk hadj hnd hne _ _ fuel _ hI]
  have h1 : 1 / (T : ℝ) = walkE adj fuel x (fun l => 1 / (T : ℝ) * ∑ f ∈ rtrees adj ((x :: l).getLast (by simp)), if comb x l f = g then 1 else 0) := by
    rw [walkE_mul, comb_uniform hadj hnd hne fuel x g hg, mul_one]
  have hx : (abInit x).n0 = x := rfl
  rw [h1, hx]
  -- pointwise
  have hpt : ∀ l, (x :: l).IsChain (fun u v => v ∈ adj u) →
      (0 ≤ 1 / (T : ℝ) * ∑ f ∈ rtrees adj ((x :: l).getLast (by simp)), (if comb x l f = g then 1 else 0)
        ∧ 1 / (T : ℝ) * ∑ f ∈ rtrees adj ((x :: l).getLast (by simp)), (if comb x l f = g then 1 else 0) ≤ 1)
      ∧ (¬ (l.foldl abMove (abInit x)).nb < n → 1 / (T : ℝ) * ∑ f ∈ rtrees adj ((x :: l).getLast (by simp)), (if comb x l f = g then 1 else 0)
        = if graphOf (l.foldl abMove (abInit x)).edges = H then 1 else 0) := by
    intro l hl
    refine ⟨⟨by positivity, ?_⟩, ?_⟩
    · rw [one_div, inv_mul_le_iff₀ hTpos, mul_one, ← hcard ((x :: l).getLast (by simp)), card_eq_sum_ones]
      push_cast
      refine sum_le_sum fun f _ => ?_
      split <;> simp
    · intro hn
      have hA := abInv_fold hadj l hI hl
      have hv := abInv_all hA hn
      have htree := (hA.grown.spanning (by
        have h3 := hA.nb
        have h4 : (Finset.univ.filter fun v => (l.foldl abMove (abInit x)).visited v = true).card ≤ n := (card_le_univ _).trans (by simp)
        omega)).2.2
      have hsame : ∀ f ∈ rtrees adj ((x :: l).getLast (by simp)), (comb x l f = g ↔ graphOf (l.foldl abMove (abInit x)).edges = H) := by
        intro f hf
        have hR := comb_RTree hadj hnd hne l x f hl (mem_filter.1 hf).2
        have hle : rgraph x (comb x l f) ≤ graphOf (l.foldl abMove (abInit x)).edges := by
          intro a b hab
          rw [rgraph, SimpleGraph.fromRel_adj] at hab
          refine graphOf_adj.2 ⟨hab.1, ?_⟩
          rcases hab.2 with ⟨h2, h3⟩ | ⟨h2, h3⟩
          · right; rw [← h3]; exact comb_edge l x f a h2 (hv a)
          · left; rw [← h3]; exact comb_edge l x f b h2 (hv b)
        rw [← tree_eq_of_le hR.tree htree hle, ← hgH]
        exact ⟨fun h => by rw [h], fun h => hR.inj hg h⟩
      rw [sum_congr rfl fun f hf => if_congr (hsame f hf) rfl rfl, sum_const, hcard, nsmul_eq_mul]
      field_simp
  have hsub : ∀ (F G : List (Fin n) → ℝ), walkE adj fuel x F - walkE adj fuel x G = walkE adj fuel x fun l => F l - G l := by
    intro F G
    have := walkE_add (adj := adj) fuel x (fun l => F l - G l) G
    simp only [sub_add_cancel] at this
    linarith
  rw [hsub, abs_le]
  constructor
  · have : -walkE adj fuel x (fun l => if (l.foldl abMove (abInit x)).nb < n then (1 : ℝ) else 0)
        = walkE adj fuel x (fun l => -1 * if (l.foldl abMove (abInit x)).nb < n then (1 : ℝ) else 0) := by
      rw [walkE_mul]; ring
    rw [this]
    refine walkE_mono fuel x fun l hl _ => ?_
    obtain ⟨⟨a1, a2⟩, a3⟩ := hpt l hl
    by_cases hn : (l.foldl abMove (abInit x)).nb < n
    · simp only [if_pos hn]; linarith
    · simp only [if_neg hn]; rw [a3 hn]; simp
  · refine walkE_mono fuel x fun l hl _ => ?_
    obtain ⟨⟨a1, a2⟩, a3⟩ := hpt l hl
    by_cases hn : (l.foldl abMove (abInit x)).nb < n
    · simp only [if_pos hn]; linarith
    · simp only [if_neg hn]; rw [a3 hn]; simp
end

theorem abLoop_unf_antitone (s : ABSt n) : Antitone fun fuel => (abLoop adj fuel s).E unf := by
  refine antitone_nat_of_succ_le fun fuel => ?_
  induction fuel generalizing s with
  | zero =>
    by_cases hlt : s.nb < n
    · rw [show abLoop adj 0 s = Dist.ret (.ok none) by rw [abLoop, if_pos hlt], E_ret]
      exact (E_le_one (abLoop_nonneg _ _) (abLoop_mass _ _) unf_le_one).trans (by simp [unf])
    · rw [abLoop, abLoop, if_neg hlt, if_neg hlt]
  | succ fuel ih =>
    by_cases hlt : s.nb < n
    · rw [abLoop, if_pos hlt, abLoop, if_pos hlt, unf_eq, E_andThen, E_andThen]
      refine E_mono_possible (choiceO_nonneg _) ?_
      intro o _
      cases o with
      | ok t => have := ih (abMove s t); rw [unf_eq] at this; exact this
      | raise e => exact le_rfl
    · rw [abLoop, abLoop, if_neg hlt, if_neg hlt]

theorem abLoop_unf_tendsto (hadj : NbrsOf es adj) (hG : (graphOf es).Connected) {r : Fin n} {s : ABSt n}
    (hs : ABInv es r s) : Tendsto (fun fuel => (abLoop adj fuel s).E unf) atTop (𝓝 0) := by
  set K := (n + 1) * (maxDist es + 1) + 1 with hK
  set ρ := 1 - epsOf adj ^ K with hρ
  have h0 : 0 ≤ ρ := by linarith [pow_le_one₀ (n := K) (epsOf_pos adj).le (epsOf_le_one adj)]
  have h1 : ρ < 1 := by linarith [pow_pos (epsOf_pos adj) K]
  have h2 : Tendsto (fun fuel => ρ ^ (fuel / K)) atTop (𝓝 0) :=
    (tendsto_pow_atTop_nhds_zero_of_lt_one h0 h1).comp (Nat.tendsto_div_const_atTop (by omega))
  refine squeeze_zero (fun fuel => E_nonneg (abLoop_nonneg _ _) unf_nonneg) (fun fuel => ?_) h2
  exact (abLoop_unf_antitone s (Nat.div_mul_le_self fuel K)).trans (abLoop_decay hadj hG _ s hs)

end Verif.Model
