import Verif.Lemmas.UST
import Mathlib.Combinatorics.SimpleGraph.Metric

/-! Trees seen from a root. -/

namespace Verif.Model
open Verif Verif.Spec Finset
variable {n : ℕ}

/-- `par` is the parent function of the tree `H` rooted at `r` -/
structure ParOf (H : SimpleGraph (Fin n)) (r : Fin n) (par : Fin n → Fin n) (dep : Fin n → ℕ) : Prop where
  adj : ∀ v, v ≠ r → H.Adj v (par v)
  dep : ∀ v, v ≠ r → dep (par v) < dep v
  edge : ∀ a b, H.Adj a b → (a ≠ r ∧ par a = b) ∨ (b ≠ r ∧ par b = a)

theorem exists_parOf {H : SimpleGraph (Fin n)} (hH : H.IsTree) (r : Fin n) : ∃ par dep, ParOf H r par dep := by
  classical
  have h1 : ∀ v, v ≠ r → ∃ u, H.Adj v u ∧ H.dist u r < H.dist v r := by
    intro v hv
    obtain ⟨p, hp⟩ := hH.connected.exists_walk_length_eq_dist v r
    cases p with
    | nil => exact absurd rfl hv
    | cons h p =>
      rename_i u
      refine ⟨u, h, ?_⟩
      rw [← hp, SimpleGraph.Walk.length_cons]
      exact Nat.lt_succ_of_le (SimpleGraph.dist_le p)
  choose! par h2 h3 using h1
  refine ⟨par, fun v => H.dist v r, h2, h3, ?_⟩
  let F : {v // v ≠ r} → H.edgeSet := fun v => ⟨s(v.1, par v.1), h2 v.1 v.2⟩
  have hinj : Function.Injective F := by
    rintro ⟨a, ha⟩ ⟨b, hb⟩ hab
    have : s(a, par a) = s(b, par b) := congrArg Subtype.val hab
    rw [Sym2.eq_iff] at this
    rcases this with ⟨h, -⟩ | ⟨h, h'⟩
    · exact Subtype.ext h
    · have e1 := h3 a ha
      have e2 := h3 b hb
      rw [h'] at e1
      rw [← h] at e2
      omega
  have hcard : Fintype.card {v // v ≠ r} = Fintype.card H.edgeSet := by
    have e := hH.card_edgeFinset
    rw [SimpleGraph.edgeFinset_card] at e
    rw [Fintype.card_subtype_compl, Fintype.card_subtype_eq]
    omega
  have hsurj := ((Fintype.bijective_iff_injective_and_card F).2 ⟨hinj, hcard⟩).2
  intro a b hab
  obtain ⟨⟨v, hv⟩, h⟩ := hsurj ⟨s(a, b), hab⟩
  have : s(v, par v) = s(a, b) := congrArg Subtype.val h
  rw [Sym2.eq_iff] at this
  rcases this with ⟨rfl, h'⟩ | ⟨rfl, h'⟩
  · exact Or.inl ⟨hv, h'⟩
  · exact Or.inr ⟨hv, h'⟩

section
variable {H : SimpleGraph (Fin n)} {r : Fin n} {par : Fin n → Fin n} {dep : Fin n → ℕ} (hp : ParOf H r par dep)
include hp

/-- a chain of parents goes down in depth -/
theorem ParOf.chain_dep : ∀ {p : List (Fin n)} {a : Fin n}, (a :: p).IsChain (fun u v => v = par u) → (∀ v ∈ a :: p, v ≠ r) →
    ∀ v ∈ p, dep v < dep a
  | [], a, _, _, v, hv => by simp at hv
  | b :: p, a, hc, hr, v, hv => by
    rw [List.isChain_cons_cons] at hc
    have h1 : dep b < dep a := by rw [hc.1]; exact hp.dep a (hr a (by simp))
    rcases List.mem_cons.1 hv with rfl | hv
    · exact h1
    · exact (ParOf.chain_dep hc.2 (fun v hv => hr v (List.mem_cons_of_mem _ hv)) v hv).trans h1

/-- the parent of the last node of a chain of parents is not on the chain -/
theorem ParOf.last_not_mem {p : List (Fin n)} {x : Fin n} (hc : (p ++ [x]).IsChain (fun u v => v = par u)) (hr : ∀ v ∈ p ++ [x], v ≠ r) :
    par x ∉ p ++ [x] := by
  have hx : x ≠ r := hr x (by simp)
  have h1 : ∀ v ∈ p ++ [x], dep x ≤ dep v := by
    intro v hv
    obtain ⟨l1, l2, e⟩ := List.append_of_mem hv
    have hc' := hc
    rw [e] at hc'
    have h2 := (List.isChain_append.1 hc').2.1
    rcases List.eq_nil_or_concat l2 with rfl | ⟨l, z, rfl⟩
    · rw [(List.cons.inj (List.append_inj' e rfl).2).1]
    · have e' : p ++ [x] = (l1 ++ v :: l) ++ [z] := by rw [e]; simp
      have hz : x = z := (List.cons.inj (List.append_inj' e' rfl).2).1
      refine (ParOf.chain_dep hp h2 (fun u hu => hr u ?_) x (by simp [hz])).le
      rw [e]; exact List.mem_append_right _ hu
  intro h
  have := h1 _ h
  have := hp.dep x hx
  omega
end

end Verif.Model
