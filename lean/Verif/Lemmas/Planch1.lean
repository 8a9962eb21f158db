import Verif.Lemmas.RSK3
import Verif.Spec.Plancherel
import Verif.Model.Plancherel

set_option linter.unusedVariables false

namespace Verif.Lemmas
open Verif Verif.Spec Verif.Model

/-- shift every entry -/
def shiftT (T : List (List ℕ)) : List (List ℕ) := T.map (List.map (· + 1))

theorem shiftT_injective : Function.Injective shiftT :=
  List.map_injective_iff.2 (List.map_injective_iff.2 fun a b h => by simpa using h)

theorem shape_shiftT (T : List (List ℕ)) : shape (shiftT T) = shape T := by
  simp [shape, shiftT, Function.comp_def]

theorem shiftT_get (T : List (List ℕ)) (i j : ℕ) : ((shiftT T)[i]?.bind (·[j]?)) = (T[i]?.bind (·[j]?)).map (· + 1) := by
  unfold shiftT
  rw [List.getElem?_map]
  cases T[i]? with
  | none => rfl
  | some r => simp

theorem flatten_shiftT (T : List (List ℕ)) : (shiftT T).flatten = T.flatten.map (· + 1) := by
  simp [shiftT, List.map_flatten]

/-- a semistandard tableau with entries `0..n-1`, each once, becomes standard after the shift -/
theorem standard_shiftT_iff (n : ℕ) (T : List (List ℕ)) :
    Standard n (shiftT T) ↔ Semistandard T ∧ T.flatten.Perm (List.range n) := by
  have hperm : (shiftT T).flatten.Perm ((List.range n).map (· + 1)) ↔ T.flatten.Perm (List.range n) := by
    rw [flatten_shiftT]
    exact List.map_perm_map_iff (fun a b h => by simpa using h)
  have hcols : ColumnsStrict (shiftT T) ↔ ColumnsStrict T := by
    constructor
    · intro h i j a b ha hb
      have := h i j (a + 1) (b + 1) (by rw [shiftT_get, ha]; rfl) (by rw [shiftT_get, hb]; rfl)
      omega
    · intro h i j a b ha hb
      rw [shiftT_get, Option.map_eq_some_iff] at ha hb
      obtain ⟨a', ha', rfl⟩ := ha
      obtain ⟨b', hb', rfl⟩ := hb
      have := h i j a' b' ha' hb'
      omega
  constructor
  · rintro ⟨h1, h2, h3, h4⟩
    refine ⟨⟨by rw [← shape_shiftT]; exact h1, fun r hr => ?_, hcols.1 h3⟩, hperm.1 h4⟩
    have := h2 (r.map (· + 1)) (List.mem_map_of_mem hr)
    rw [List.pairwise_map] at this
    exact this.imp fun h => by omega
  · rintro ⟨⟨h1, h2, h3⟩, h4⟩
    refine ⟨by rw [shape_shiftT]; exact h1, fun r hr => ?_, hcols.2 h3, hperm.2 h4⟩
    obtain ⟨s, hs, rfl⟩ := List.mem_map.1 hr
    rw [List.pairwise_map]
    have hnd : s.Nodup := List.Nodup.sublist (List.sublist_flatten_of_mem hs) (h4.nodup_iff.2 List.nodup_range)
    exact ((h2 s hs).and hnd).imp fun ⟨a, b⟩ => by omega

theorem exists_shiftT {n : ℕ} {T : List (List ℕ)} (h : Standard n T) : ∃ S, shiftT S = T := by
  refine ⟨T.map (List.map (· - 1)), ?_⟩
  unfold shiftT
  rw [List.map_map]
  conv_rhs => rw [← List.map_id T]
  refine List.map_congr_left fun r hr => ?_
  rw [Function.comp_apply, List.map_map, id]
  conv_rhs => rw [← List.map_id r]
  refine List.map_congr_left fun e he => ?_
  have hm : e ∈ T.flatten := List.mem_flatten.2 ⟨r, hr, he⟩
  have := h.entries.mem_iff.1 hm
  obtain ⟨k, -, rfl⟩ := List.mem_map.1 this
  simp

variable {α : Type*} [LinearOrder α]

theorem rsk_surj {n : ℕ} {P : List (List α)} {Q : List (List ℕ)} (hP : Semistandard P) (hQ : Standard n Q) (hs : shape P = shape Q) :
    ∃ seq : List α, rsk seq = some (P, Q) := by
  have hinv : RInv (n + 1) P Q := by
    refine RInv.of_spec (n + 1) P Q hs hP.shape hP.rows hP.cols hQ.rows hQ.cols fun e he => ?_
    have := hQ.entries.mem_iff.1 he
    simp only [List.mem_map, List.mem_range] at this
    obtain ⟨k, hk, rfl⟩ := this
    omega
  obtain ⟨xs, -, h⟩ := rskLoop_surj n P Q hinv hQ.entries
  exact ⟨xs, h⟩

theorem rsk_spec' (seq : List α) : ∃ P Q, rsk seq = some (P, Q) ∧ shape P = shape Q ∧ Semistandard P ∧ Standard seq.length Q ∧
    P.flatten.Perm seq := by
  obtain ⟨P, Q, h1, h2, -, h4, h5⟩ := rskLoop_spec seq 1 [] [] trivial
  obtain ⟨i1, i2, i3, i4⟩ := h2.semistandard
  refine ⟨P, Q, h1, h2.shape_eq, ⟨h2.isPartition, i1, i2⟩, ⟨by rw [← h2.shape_eq]; exact h2.isPartition, i3, i4, ?_⟩, by simpa using h4⟩
  simpa using h5

theorem rsk_inj' {s t : List α} (hl : s.length = t.length) (h : rsk s = rsk t) : s = t :=
  (rskLoop_injective s t 1 [] [] [] [] trivial trivial hl h).2.2

theorem sum_shape (T : List (List α)) : (shape T).sum = T.flatten.length := by
  simp [shape, List.length_flatten]

open Classical in
/-- the shape of the tableaux of a permutation -/
theorem card_shape (lam : List ℕ) :
    ((List.range lam.sum).permutations.toFinset.filter fun σ => ∃ s, plancherelOf σ = some (lam, s)).card = numSYT lam ^ 2 := by
  have hkey : Nat.card {σ // σ ∈ (List.range lam.sum).permutations.toFinset.filter fun σ => ∃ s, plancherelOf σ = some (lam, s)}
      = Nat.card ({T : List (List ℕ) // Standard lam.sum T ∧ shape T = lam} × {T : List (List ℕ) // Standard lam.sum T ∧ shape T = lam}) := by
    have hfacts : ∀ σ : {σ // σ ∈ (List.range lam.sum).permutations.toFinset.filter fun σ => ∃ s, plancherelOf σ = some (lam, s)},
        ∃ P Q, rsk σ.1 = some (P, Q) ∧ (Standard lam.sum (shiftT P) ∧ shape (shiftT P) = lam) ∧ (Standard lam.sum Q ∧ shape Q = lam) := by
      rintro ⟨σ, hσ⟩
      rw [Finset.mem_filter, List.mem_toFinset, List.mem_permutations] at hσ
      obtain ⟨hp, s, hs⟩ := hσ
      obtain ⟨P, Q, h1, h2, h3, h4, h5⟩ := rsk_spec' σ
      have hl : σ.length = lam.sum := by simpa using hp.length_eq
      have hshape : shape P = lam := by
        simp only [plancherelOf, h1, Option.some.injEq, Prod.mk.injEq] at hs
        exact hs.1
      exact ⟨P, Q, h1, ⟨(standard_shiftT_iff _ _).2 ⟨h3, h5.trans hp⟩, by rw [shape_shiftT, hshape]⟩, hl ▸ h4, by rw [← h2, hshape]⟩
    choose P Q h1 h2 h3 using hfacts
    refine Nat.card_congr (Equiv.ofBijective (fun σ => (⟨shiftT (P σ), h2 σ⟩, ⟨Q σ, h3 σ⟩)) ⟨?_, ?_⟩)
    · intro σ τ h
      simp only [Prod.mk.injEq, Subtype.mk.injEq] at h
      have e : rsk σ.1 = rsk τ.1 := by rw [h1, h1, shiftT_injective h.1, h.2]
      have hl : ∀ σ : {σ // σ ∈ (List.range lam.sum).permutations.toFinset.filter fun σ => ∃ s, plancherelOf σ = some (lam, s)},
          σ.1.length = lam.sum := fun σ => by
        have := σ.2
        rw [Finset.mem_filter, List.mem_toFinset, List.mem_permutations] at this
        simpa using this.1.length_eq
      exact Subtype.ext (rsk_inj' ((hl σ).trans (hl τ).symm) e)
    · rintro ⟨⟨T, hT, hTs⟩, ⟨U, hU, hUs⟩⟩
      obtain ⟨S, rfl⟩ := exists_shiftT hT
      obtain ⟨hS, hSp⟩ := (standard_shiftT_iff _ _).1 hT
      have hSs : shape S = lam := by rw [← shape_shiftT]; exact hTs
      obtain ⟨seq, hseq⟩ := rsk_surj hS hU (hSs.trans hUs.symm)
      obtain ⟨P', Q', e1, e2, e3, e4, e5⟩ := rsk_spec' seq
      rw [hseq] at e1
      obtain ⟨rfl, rfl⟩ : S = P' ∧ U = Q' := by simpa using e1
      have hmem : seq ∈ (List.range lam.sum).permutations.toFinset.filter fun σ => ∃ s, plancherelOf σ = some (lam, s) := by
        rw [Finset.mem_filter, List.mem_toFinset, List.mem_permutations]
        refine ⟨e5.symm.trans hSp, ?_⟩
        simp only [plancherelOf, hseq, Option.some.injEq, Prod.mk.injEq]
        exact ⟨_, hSs, rfl⟩
      refine ⟨⟨seq, hmem⟩, ?_⟩
      have := h1 ⟨seq, hmem⟩
      rw [hseq] at this
      obtain ⟨a, b⟩ : S = P ⟨seq, hmem⟩ ∧ U = Q ⟨seq, hmem⟩ := by simpa using this
      simp only [Prod.mk.injEq, Subtype.mk.injEq]
      exact ⟨by rw [← a], b.symm⟩
  rw [Nat.card_prod, ← sq] at hkey
  rw [numSYT, ← hkey, Nat.card_eq_fintype_card, Fintype.card_coe]

theorem plancherel_sum {σ : List ℕ} {lam : List ℕ} {s : List ℚ} (h : plancherelOf σ = some (lam, s)) : lam.sum = σ.length := by
  obtain ⟨P, Q, h1, h2, h3, h4, h5⟩ := rsk_spec' σ
  simp only [plancherelOf, h1, Option.some.injEq, Prod.mk.injEq] at h
  rw [← h.1, ← h5.length_eq, ← sum_shape]; rfl

theorem prob_shape {R : Type*} [Field R] [CharZero R] (N : ℕ) (lam : List ℕ) :
    (uniformPermutation R N).prob (fun σ => ∃ s, plancherelOf σ = some (lam, s))
      = if lam.sum = N then (numSYT lam : R) ^ 2 / (N.factorial : R) else 0 := by
  classical
  rw [Dist.prob_eq, E_uniformPermutation, ← Finset.sum_filter, Finset.sum_const, nsmul_one]
  by_cases h : lam.sum = N
  · subst h
    rw [if_pos rfl, card_shape]
    push_cast
    ring
  · rw [if_neg h, Finset.filter_eq_empty_iff.2, Finset.card_empty, Nat.cast_zero, mul_zero]
    rintro σ hσ ⟨s, hs⟩
    rw [List.mem_toFinset, List.mem_permutations] at hσ
    exact h ((plancherel_sum hs).trans (by simpa using hσ.length_eq))

end Verif.Lemmas
