import Verif.Lemmas.MCMCRev
import Verif.Lemmas.Nonneg
import Mathlib.Combinatorics.SimpleGraph.Metric
import Mathlib.Tactic.GCongr

/-! Random loops that have, from every state, a uniformly positive chance of making progress. -/

namespace Verif.Model
open Verif Dist

theorem geom_decay {σ : Type*} {I done : σ → Prop} {φ : σ → ℕ} {ε : ℝ} (hε : 0 < ε) (hε1 : ε ≤ 1)
    {u : ℕ → σ → ℝ} (hu1 : ∀ f s, u f s ≤ 1) (hdone : ∀ f s, done s → u f s = 0)
    (hstep : ∀ s, I s → ¬ done s → ∃ s', I s' ∧ (done s' ∨ φ s' < φ s) ∧
      ∀ f c, 0 ≤ c → (∀ t, I t → u f t ≤ c) → u (f + 1) s ≤ ε * u f s' + (1 - ε) * c)
    {B : ℕ} (hB : ∀ s, I s → φ s ≤ B) (m : ℕ) :
    ∀ s, I s → u (m * (B + 1)) s ≤ (1 - ε ^ (B + 1)) ^ m := by
  have mono : ∀ k f c, 0 ≤ c → (∀ t, I t → u f t ≤ c) → ∀ t, I t → u (f + k) t ≤ c := by
    intro k
    induction k with
    | zero => intro f c _ h t ht; exact h t ht
    | succ k ih =>
      intro f c hc h t ht
      by_cases hd : done t
      · rw [hdone _ _ hd]; exact hc
      · obtain ⟨s', h1, -, h3⟩ := hstep t ht hd
        have h4 := h3 (f + k) c hc (ih f c hc h)
        have h5 := ih f c hc h s' h1
        rw [← add_assoc]
        nlinarith
  have claim : ∀ k f c, 0 ≤ c → (∀ t, I t → u f t ≤ c) → ∀ s, I s → φ s < k →
      u (f + k) s ≤ (1 - ε ^ k) * c := by
    intro k
    induction k with
    | zero => intro f c _ _ s _ h; omega
    | succ k ih =>
      intro f c hc h s hs hk
      have hp : ε ^ (k + 1) ≤ ε := by
        rw [pow_succ]; exact mul_le_of_le_one_left hε.le (pow_le_one₀ hε.le hε1)
      by_cases hd : done s
      · rw [hdone _ _ hd]
        have : ε ^ (k + 1) ≤ 1 := hp.trans hε1
        nlinarith
      · obtain ⟨s', h1, h2, h3⟩ := hstep s hs hd
        have h4 := h3 (f + k) c hc (mono k f c hc h)
        rw [← add_assoc]
        by_cases hd' : done s'
        · rw [hdone _ _ hd'] at h4
          nlinarith
        · have hlt : φ s' < k := by
            rcases h2 with h2 | h2
            · exact absurd h2 hd'
            · omega
          have h5 := ih f c hc h s' h1 hlt
          have e : (1 - ε ^ (k + 1)) * c = ε * ((1 - ε ^ k) * c) + (1 - ε) * c := by ring
          rw [e]
          have := mul_le_mul_of_nonneg_left h5 hε.le
          linarith
  have hr : 0 ≤ 1 - ε ^ (B + 1) := by
    have : ε ^ (B + 1) ≤ 1 := pow_le_one₀ hε.le hε1
    linarith
  induction m with
  | zero => intro s _; simpa using hu1 0 s
  | succ m ih =>
    intro s hs
    have := claim (B + 1) (m * (B + 1)) _ (pow_nonneg hr m) ih s hs (by have := hB s hs; omega)
    rw [add_mul, one_mul, pow_succ, mul_comm]
    rwa [mul_comm, mul_comm ((1 - ε ^ (B + 1)) ^ m)]

/-- An expectation is at most what a known outcome contributes, the rest being bounded. -/
theorem E_le_of_mem {α : Type*} {d : Dist ℝ α} (hd : Nonneg d) (hm : d.mass = 1) {f : α → ℝ} {c : ℝ}
    (hf : ∀ a, d.Possible a → f a ≤ c) {a : α} {w : ℝ} (ha : (a, w) ∈ d) : d.E f ≤ w * f a + (1 - w) * c := by
  have key : ∀ d : Dist ℝ α, Nonneg d → (∀ a, d.Possible a → f a ≤ c) → d.E f ≤ d.mass * c := by
    intro d
    induction d with
    | nil => intro _ _; simp [mass]
    | cons x d ih =>
      obtain ⟨b, v⟩ := x
      intro h1 h2
      have hv : 0 ≤ v := h1 (b, v) (by simp)
      have h3 := ih (fun a h => h1 a (List.mem_cons_of_mem _ h))
        (fun a ⟨w, h, h'⟩ => h2 a ⟨w, List.mem_cons_of_mem _ h, h'⟩)
      rw [E_cons, mass, E_cons, ← mass]
      have : v * f b ≤ v * c := by
        by_cases h0 : v = 0
        · simp [h0]
        · exact mul_le_mul_of_nonneg_left (h2 b ⟨v, by simp, h0⟩) hv
      nlinarith
  obtain ⟨d1, d2, rfl⟩ := List.append_of_mem ha
  have h1 := key d1 (fun a h => hd a (by simp [h])) (fun a ⟨w, h, h'⟩ => hf a ⟨w, by simp [h], h'⟩)
  have h2 := key d2 (fun a h => hd a (by simp [h])) (fun a ⟨w, h, h'⟩ => hf a ⟨w, by simp [h], h'⟩)
  rw [E_append, E_cons]
  have h3 : mass d1 + (w + mass d2) = 1 := by
    rw [← hm]; simp [mass, E_append, E_cons]
  have : w * f a + (1 - w) * c = w * f a + (mass d1 + mass d2) * c := by rw [← h3]; ring
  rw [this]
  linarith

theorem choiceO_nonneg {α : Type*} (l : List α) : Nonneg (choiceO l) := by
  unfold choiceO
  split
  · exact Nonneg.ret _
  · exact (Nonneg.choice l).map

theorem andThen_nonneg {α β : Type*} {d : Dist ℝ (Outcome α)} {k : α → Dist ℝ (Outcome β)} (hd : Nonneg d)
    (hk : ∀ a, Nonneg (k a)) : Nonneg (d.andThen k) := by
  refine Nonneg.bind hd ?_
  intro o
  cases o with
  | ok a => exact hk a
  | raise e => exact Nonneg.ret _

theorem andThen_mass {α β : Type*} {d : Dist ℝ (Outcome α)} {k : α → Dist ℝ (Outcome β)} (hd : d.mass = 1)
    (hk : ∀ a, (k a).mass = 1) : (d.andThen k).mass = 1 := by
  rw [mass, andThen, E_bind]
  refine Eq.trans ?_ hd
  refine E_congr ?_
  intro o w _
  cases o with
  | ok a => exact hk a
  | raise e => simp

theorem choiceO_mass {α : Type*} (l : List α) : (choiceO l).mass = 1 := by
  unfold choiceO
  split
  · simp [mass]
  · rename_i h
    rw [mass, E_map, E_choice]
    have : l ≠ [] := by simpa using h
    have : (l.length : ℝ) ≠ 0 := by
      rw [Ne, Nat.cast_eq_zero, List.length_eq_zero_iff]; exact this
    simp [this]

theorem mem_choiceO {α : Type*} {l : List α} {a : α} (h : a ∈ l) :
    ((.ok a, 1 / (l.length : ℝ)) : Outcome α × ℝ) ∈ choiceO l := by
  unfold choiceO
  rw [if_neg (by intro h'; rw [List.isEmpty_iff] at h'; simp [h'] at h)]
  simp only [Dist.map, Dist.choice, List.map_map, List.mem_map]
  exact ⟨a, h, rfl⟩

theorem mem_andThen {α β : Type*} {d : Dist ℝ (Outcome α)} {k : α → Dist ℝ (Outcome β)} {a : α} {b : Outcome β}
    {w w' : ℝ} (h : (.ok a, w) ∈ d) (h' : (b, w') ∈ k a) : (b, w * w') ∈ d.andThen k := by
  unfold andThen Dist.bind
  rw [List.mem_flatMap]
  exact ⟨_, h, List.mem_map.2 ⟨_, h', rfl⟩⟩

/-! ### distance to a set of nodes -/

variable {V : Type*} [Fintype V]

/-- distance from `v` to the closest node of `S` -/
noncomputable def distTo (G : SimpleGraph V) (S : Set V) (v : V) : ℕ := sInf {k | ∃ w ∈ S, k = G.dist v w}

theorem distTo_le {G : SimpleGraph V} {S : Set V} {v w : V} (h : w ∈ S) : distTo G S v ≤ G.dist v w :=
  Nat.sInf_le ⟨w, h, rfl⟩

theorem distTo_bound (G : SimpleGraph V) {S : Set V} (hS : S.Nonempty) (v : V) :
    distTo G S v ≤ ∑ a, ∑ b, G.dist a b := by
  obtain ⟨w, hw⟩ := hS
  refine (distTo_le hw).trans ?_
  refine (Finset.single_le_sum (f := fun b => G.dist v b) (fun _ _ => Nat.zero_le _) (Finset.mem_univ w)).trans ?_
  exact Finset.single_le_sum (f := fun a => ∑ b, G.dist a b) (fun _ _ => Nat.zero_le _) (Finset.mem_univ v)

theorem exists_closer {G : SimpleGraph V} (hG : G.Connected) {S : Set V} (hS : S.Nonempty) {v : V} (hv : v ∉ S) :
    ∃ u, G.Adj v u ∧ distTo G S u < distTo G S v := by
  have hne : {k | ∃ w ∈ S, k = G.dist v w}.Nonempty := by
    obtain ⟨w, hw⟩ := hS; exact ⟨_, w, hw, rfl⟩
  obtain ⟨w, hw, hd⟩ := Nat.sInf_mem hne
  obtain ⟨p, hp⟩ := hG.exists_walk_length_eq_dist v w
  cases p with
  | nil => exact absurd hw hv
  | cons h p =>
    rename_i u
    refine ⟨u, h, ?_⟩
    have h1 : distTo G S u ≤ p.length := (distTo_le hw).trans (SimpleGraph.dist_le p)
    have h2 : distTo G S v = G.dist v w := hd
    rw [h2, ← hp, SimpleGraph.Walk.length_cons]
    omega

end Verif.Model
