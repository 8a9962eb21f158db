import Verif.Model.MCMC
import Verif.Spec.Chain
import Verif.Lemmas.Nonneg
import Verif.Props.Utils

set_option linter.unusedSectionVars false

namespace Verif.Model
open Verif Verif.Spec Verif.Dist

variable {N : ℕ} {K : Matrix (Fin N) (Fin N) ℝ}

theorem detST_detL (K : Matrix (Fin N) (Fin N) ℝ) (S : List (Fin N)) :
    detST K S none = .ok (detL K S) := by
  simp [detST, detL]

theorem detL_minor {S : List (Fin N)} (h : S.Nodup) : detL K S = minor K S.toFinset := by
  have := Props.C48_det_S K S h
  rw [detST_detL] at this
  exact Outcome.ok.inj this

/-! ### possible outcomes -/

theorem possible_andThen {α β : Type*} {d : Dist ℝ (Outcome α)} {k : α → Dist ℝ (Outcome β)} {b} :
    (d.andThen k).Possible b ↔ (∃ a, d.Possible (.ok a) ∧ (k a).Possible b) ∨
      ∃ e, d.Possible (.raise e) ∧ b = .raise e := by
  rw [andThen, Possible.bind_iff]
  constructor
  · rintro ⟨o, h1, h2⟩
    cases o with
    | ok a => exact Or.inl ⟨a, h1, h2⟩
    | raise e => exact Or.inr ⟨e, h1, Possible.ret_iff.1 h2⟩
  · rintro (⟨a, h1, h2⟩ | ⟨e, h1, rfl⟩)
    · exact ⟨_, h1, h2⟩
    · exact ⟨_, h1, Possible.ret_iff.2 rfl⟩

theorem possible_choiceO_ok {α : Type*} {l : List α} {a : α} :
    (choiceO l).Possible (.ok a) ↔ a ∈ l := by
  unfold choiceO
  split
  · rename_i h
    rw [Possible.ret_iff]
    have : l = [] := by simpa using h
    simp [this, Outcome.valueError]
  · rw [Possible.map_iff]
    constructor
    · rintro ⟨b, hb, h⟩
      cases h
      exact Possible.choice_iff.1 hb
    · intro h; exact ⟨a, Possible.choice_iff.2 h, rfl⟩

theorem possible_choiceO_raise {α : Type*} {l : List α} {e} :
    (choiceO l).Possible (.raise e) ↔ l = [] ∧ e = .valueError := by
  unfold choiceO
  split
  · rename_i h
    rw [Possible.ret_iff]
    have : l = [] := by simpa using h
    simp [this, Outcome.valueError]
  · rename_i h
    rw [Possible.map_iff]
    constructor
    · rintro ⟨b, hb, h⟩; cases h
    · rintro ⟨rfl, _⟩; simp at h

theorem possible_accept {a b c : ℝ} (hb : 0 < b) (hc : 0 < c) (h : (acceptMove a b c).Possible true) : 0 < a := by
  unfold acceptMove at h
  rw [if_neg hb.ne', Possible.bern_iff] at h
  simp only [if_true] at h
  have h2 : a / b * c = a * (c / b) := by ring
  rw [h2] at h
  exact (pos_iff_pos_of_mul_pos h).2 (div_pos hc hb)

/-! ### the loop -/

theorem loop_possible {σ : Type*} {step : σ → Dist ℝ (Outcome σ)} {stop : ℕ → Bool} {I : σ → Prop}
    {Rel : σ → σ → Prop} (hstep : ∀ s s', I s → (step s).Possible (.ok s') → I s' ∧ Rel s s') :
    ∀ n it s, I s → ∀ l, (mcmcLoop step stop it n s).Possible (.ok l) →
      (∀ s' ∈ l, I s') ∧ (s :: l).IsChain Rel ∧ l.length ≤ n ∧
      (∀ j, j + 1 < l.length → stop (it + j) = false) ∧
      (l.length < n → l ≠ [] ∧ stop (it + (l.length - 1)) = true) := by
  intro n
  induction n with
  | zero =>
    intro it s hs l h
    rw [mcmcLoop, Possible.ret_iff] at h
    cases h
    simp
  | succ n ih =>
    intro it s hs l h
    rw [mcmcLoop, possible_andThen] at h
    rcases h with ⟨s', h1, h2⟩ | ⟨e, _, h⟩
    · obtain ⟨hI, hR⟩ := hstep s s' hs h1
      split at h2
      · rename_i hst
        rw [Possible.ret_iff] at h2
        cases h2
        refine ⟨by simpa using hI, by simpa using hR, by simp, by simp, ?_⟩
        simp [hst]
      · rename_i hst
        rw [possible_andThen] at h2
        rcases h2 with ⟨l', h3, h4⟩ | ⟨e, _, h⟩
        · rw [Possible.ret_iff] at h4
          cases h4
          obtain ⟨g1, g2, g3, g4, g5⟩ := ih (it + 1) s' hI l' h3
          refine ⟨?_, List.IsChain.cons_cons hR g2, by simpa using g3, ?_, ?_⟩
          · intro x hx
            rcases List.mem_cons.1 hx with rfl | hx
            · exact hI
            · exact g1 x hx
          · intro j hj
            cases j with
            | zero => simpa using hst
            | succ j =>
              have := g4 j (by simpa using hj)
              rw [← this]; congr 1; ring
          · intro hl
            refine ⟨by simp, ?_⟩
            obtain ⟨hne, h6⟩ := g5 (by simpa using hl)
            have hpos : 0 < l'.length := List.length_pos_iff.2 hne
            rw [← h6]; congr 1
            simp only [List.length_cons]; omega
        · cases h
    · cases h

theorem loop_raise {σ : Type*} {step : σ → Dist ℝ (Outcome σ)} {stop : ℕ → Bool} {I : σ → Prop} {P : PyErr → Prop}
    (hstep : ∀ s s', I s → (step s).Possible (.ok s') → I s')
    (hr : ∀ s e, I s → (step s).Possible (.raise e) → P e) :
    ∀ n it s, I s → ∀ e, (mcmcLoop step stop it n s).Possible (.raise e) → P e := by
  intro n
  induction n with
  | zero =>
    intro it s hs e h
    rw [mcmcLoop, Possible.ret_iff] at h
    cases h
  | succ n ih =>
    intro it s hs e h
    rw [mcmcLoop, possible_andThen] at h
    rcases h with ⟨s', h1, h2⟩ | ⟨e', h1, h⟩
    · split at h2
      · rw [Possible.ret_iff] at h2; cases h2
      · rw [possible_andThen] at h2
        rcases h2 with ⟨l', h3, h4⟩ | ⟨e', h3, h⟩
        · rw [Possible.ret_iff] at h4; cases h4
        · cases h; exact ih _ _ (hstep _ _ hs h1) _ h3
    · cases h; exact hr _ _ hs h1

/-! ### steps: valid states -/

/-- valid state of the add-delete and exchange chains -/
def Good (K : Matrix (Fin N) (Fin N) ℝ) (s : St N) : Prop := ValidState K s.S ∧ s.det = detL K s.S

theorem Good.pos {s : St N} (h : Good K s) : 0 < s.det := by
  rw [h.2, detL_minor h.1.1]; exact h.1.2

theorem good_init {S : List (Fin N)} (h : ValidState K S) : Good K (stInit K S) := ⟨h, rfl⟩

theorem moveTo_good {s s' : St N} {S1 : List (Fin N)} (hs : Good K s) (hn : S1.Nodup)
    (h : (moveTo K s S1 1).Possible (.ok s')) : s' = s ∨ s' = stInit K S1 ∧ Good K s' := by
  rw [moveTo, Possible.map_iff] at h
  obtain ⟨b, hb, h⟩ := h
  cases h
  cases b with
  | false => exact Or.inl (by simp)
  | true =>
    have := possible_accept hs.pos one_pos hb
    rw [detL_minor hn] at this
    exact Or.inr ⟨by simp, by simpa using good_init ⟨hn, this⟩⟩

theorem moveTo_raise {s : St N} {S1 : List (Fin N)} {c e} : ¬ (moveTo K s S1 c).Possible (.raise e) := by
  rw [moveTo, Possible.map_iff]
  rintro ⟨b, hb, h⟩; cases h

theorem mem_outside {S : List (Fin N)} {t : Fin N} : t ∈ outside S ↔ t ∉ S := by simp [outside]

theorem toggle_nodup {S : List (Fin N)} (h : S.Nodup) (i : Fin N) : (toggle S i).Nodup := by
  unfold toggle
  split
  · exact h.erase i
  · rename_i hi
    rw [List.nodup_append]
    refine ⟨h, by simp, ?_⟩
    intro a ha b hb
    simp only [List.mem_singleton] at hb
    subst hb; rintro rfl; exact hi ha

theorem toggle_toFinset {S : List (Fin N)} (h : S.Nodup) (i : Fin N) :
    (toggle S i).toFinset = symmDiff S.toFinset {i} := by
  ext j
  unfold toggle
  simp only [Finset.mem_symmDiff, Finset.mem_singleton, List.mem_toFinset]
  split
  · rename_i hi
    rw [h.mem_erase_iff]
    constructor
    · rintro ⟨h1, h2⟩; exact Or.inl ⟨h2, h1⟩
    · rintro (⟨h1, h2⟩ | ⟨rfl, h2⟩)
      · exact ⟨h2, h1⟩
      · exact absurd hi h2
  · rename_i hi
    simp only [List.mem_append, List.mem_singleton]
    constructor
    · rintro (h1 | rfl)
      · exact Or.inl ⟨h1, by rintro rfl; exact hi h1⟩
      · exact Or.inr ⟨rfl, hi⟩
    · rintro (⟨h1, h2⟩ | ⟨rfl, h2⟩)
      · exact Or.inl h1
      · exact Or.inr rfl

theorem adStep_good {s s' : St N} (hs : Good K s) (h : (adStep K s).Possible (.ok s')) :
    Good K s' ∧ AddDeleteMove s.S.toFinset s'.S.toFinset := by
  rw [adStep, Possible.bind_iff] at h
  obtain ⟨b, -, h⟩ := h
  cases b with
  | false =>
    rw [if_neg (by simp), Possible.ret_iff] at h
    cases h
    exact ⟨hs, .stay _⟩
  | true =>
    rw [if_pos rfl, possible_andThen] at h
    rcases h with ⟨i, -, h⟩ | ⟨e, -, h⟩
    · rcases moveTo_good hs (toggle_nodup hs.1.1 i) h with rfl | ⟨rfl, hg⟩
      · exact ⟨hs, .stay _⟩
      · refine ⟨hg, ?_⟩
        simp only [stInit]
        unfold toggle
        split
        · rename_i hi
          have : (s.S.erase i).toFinset = s.S.toFinset.erase i := by
            ext j; simp [hs.1.1.mem_erase_iff]
          rw [this]; exact .delete _ _ (by simpa using hi)
        · rename_i hi
          have : (s.S ++ [i]).toFinset = insert i s.S.toFinset := by
            ext j; simp [or_comm]
          rw [this]; exact .add _ _ (by simpa using hi)
    · cases h

theorem adStep_raise {s : St N} {e} (hN : 0 < N) : ¬ (adStep K s).Possible (.raise e) := by
  rw [adStep, Possible.bind_iff]
  rintro ⟨b, -, h⟩
  cases b with
  | false => rw [if_neg (by simp), Possible.ret_iff] at h; cases h
  | true =>
    rw [if_pos rfl, possible_andThen] at h
    rcases h with ⟨i, -, h⟩ | ⟨e, h, -⟩
    · exact moveTo_raise h
    · rw [possible_choiceO_raise] at h
      have := congrArg List.length h.1
      simp at this; omega

theorem set_spec {S : List (Fin N)} (h : S.Nodup) {i : ℕ} (hi : i < S.length) {t : Fin N} (ht : t ∉ S) :
    (S.set i t).Nodup ∧ (S.set i t).toFinset = insert t (S.toFinset.erase (S.get ⟨i, hi⟩)) := by
  constructor
  · rw [List.nodup_iff_injective_get]
    intro a b hab
    simp only [List.get_eq_getElem, List.getElem_set] at hab
    have ha := a.2; have hb := b.2
    simp only [List.length_set] at ha hb
    ext
    split at hab <;> split at hab
    · omega
    · exact absurd (hab ▸ List.getElem_mem _) ht
    · exact absurd (hab ▸ List.getElem_mem _) ht
    · exact (List.Nodup.getElem_inj_iff h).1 hab
  · ext j
    simp only [List.mem_toFinset, Finset.mem_insert, Finset.mem_erase, List.get_eq_getElem]
    constructor
    · intro hj
      obtain ⟨k, hk, rfl⟩ := List.mem_iff_getElem.1 hj
      rw [List.getElem_set]
      split
      · exact Or.inl rfl
      · rename_i hne
        refine Or.inr ⟨?_, List.getElem_mem _⟩
        intro he
        exact hne ((List.Nodup.getElem_inj_iff h).1 he).symm
    · rintro (rfl | ⟨h1, h2⟩)
      · exact List.mem_iff_getElem.2 ⟨i, by simpa using hi, by simp⟩
      · obtain ⟨k, hk, rfl⟩ := List.mem_iff_getElem.1 h2
        refine List.mem_iff_getElem.2 ⟨k, by simpa using hk, ?_⟩
        rw [List.getElem_set, if_neg]
        rintro rfl
        exact h1 rfl

theorem exStep_good {s s' : St N} {k : ℕ} (hs : Good K s) (h : (exStep K k s).Possible (.ok s')) :
    Good K s' ∧ s'.S.length = s.S.length ∧ ExchangeMove s.S.toFinset s'.S.toFinset := by
  rw [exStep, Possible.bind_iff] at h
  obtain ⟨b, -, h⟩ := h
  cases b with
  | false =>
    rw [if_neg (by simp), Possible.ret_iff] at h
    cases h
    exact ⟨hs, rfl, .stay _⟩
  | true =>
    rw [if_pos rfl, possible_andThen] at h
    rcases h with ⟨i, -, h⟩ | ⟨e, -, h⟩
    · rw [possible_andThen] at h
      rcases h with ⟨t, ht, h⟩ | ⟨e, -, h⟩
      · rw [possible_choiceO_ok, mem_outside] at ht
        split at h
        · rename_i hi
          obtain ⟨g1, g2⟩ := set_spec hs.1.1 hi ht
          rcases moveTo_good hs g1 h with rfl | ⟨rfl, hg⟩
          · exact ⟨hs, rfl, .stay _⟩
          · refine ⟨hg, by simp [stInit], ?_⟩
            simp only [stInit, g2]
            exact .exchange _ _ _ (by simp) (by simpa using ht)
        · rw [Possible.ret_iff] at h; cases h
      · cases h
    · cases h

theorem outside_ne_nil {S : List (Fin N)} (h : S.Nodup) : outside S = [] ↔ S.length = N := by
  constructor
  · intro h0
    have : ∀ t, t ∈ S := by
      intro t; by_contra ht
      have := mem_outside.2 ht
      rw [h0] at this; simp at this
    have h2 : S.toFinset = Finset.univ := by ext t; simp [this]
    rw [← List.toFinset_card_of_nodup h, h2]; simp
  · intro h0
    have h2 : S.toFinset = Finset.univ := by
      rw [← Finset.card_eq_iff_eq_univ, List.toFinset_card_of_nodup h, h0]; simp
    rw [List.eq_nil_iff_forall_not_mem]
    intro t ht
    rw [mem_outside] at ht
    apply ht
    have : t ∈ S.toFinset := by rw [h2]; simp
    simpa using this

theorem exStep_raise {s : St N} {k : ℕ} {e} (hk : s.S.length = k) (hs : s.S.Nodup)
    (h : (exStep K k s).Possible (.raise e)) : e = .valueError ∧ (k = 0 ∨ k = N) := by
  rw [exStep, Possible.bind_iff] at h
  obtain ⟨b, -, h⟩ := h
  cases b with
  | false => rw [if_neg (by simp), Possible.ret_iff] at h; cases h
  | true =>
    rw [if_pos rfl, possible_andThen] at h
    rcases h with ⟨i, hi, h⟩ | ⟨e', h1, h⟩
    · rw [possible_andThen] at h
      rcases h with ⟨t, ht, h⟩ | ⟨e', h1, h⟩
      · rw [possible_choiceO_ok, List.mem_range] at hi
        rw [if_pos (by omega)] at h
        exact absurd h moveTo_raise
      · cases h
        rw [possible_choiceO_raise, outside_ne_nil hs] at h1
        exact ⟨h1.2, Or.inr (hk ▸ h1.1)⟩
    · cases h
      rw [possible_choiceO_raise] at h1
      refine ⟨h1.2, Or.inl ?_⟩
      simpa using congrArg List.length h1.1

/-- valid state of the add-exchange-delete chain -/
def GoodA (K : Matrix (Fin N) (Fin N) ℝ) (s : AedSt N) : Prop :=
  ValidState K s.S ∧ s.det = detL K s.S ∧ s.size = s.S.length

theorem GoodA.pos {s : AedSt N} (h : GoodA K s) : 0 < s.det := by
  rw [h.2.1, detL_minor h.1.1]; exact h.1.2

theorem aedMoveTo_good {s s' : AedSt N} {S1 : List (Fin N)} {k : ℕ} {c : ℝ} (hc : 0 < c) (hs : GoodA K s)
    (hn : S1.Nodup) (hk : k = S1.length) (h : (aedMoveTo K s S1 k c).Possible (.ok s')) :
    s' = s ∨ s' = ⟨S1, detL K S1, k⟩ ∧ GoodA K s' := by
  rw [aedMoveTo, Possible.map_iff] at h
  obtain ⟨b, hb, h⟩ := h
  cases h
  cases b with
  | false => exact Or.inl (by simp)
  | true =>
    have := possible_accept hs.pos hc hb
    rw [detL_minor hn] at this
    exact Or.inr ⟨by simp, by simpa using ⟨⟨hn, this⟩, rfl, hk⟩⟩

theorem aedMoveTo_raise {s : AedSt N} {S1 : List (Fin N)} {k c e} :
    ¬ (aedMoveTo K s S1 k c).Possible (.raise e) := by
  rw [aedMoveTo, Possible.map_iff]
  rintro ⟨b, hb, h⟩; cases h

theorem eraseIdx_spec {S : List (Fin N)} (h : S.Nodup) {i : ℕ} (hi : i < S.length) :
    (S.eraseIdx i).Nodup ∧ (S.eraseIdx i).toFinset = S.toFinset.erase (S.get ⟨i, hi⟩) := by
  refine ⟨h.sublist (List.eraseIdx_sublist _ _), ?_⟩
  ext j
  simp only [List.mem_toFinset, Finset.mem_erase, List.get_eq_getElem]
  rw [List.mem_eraseIdx_iff_getElem]
  constructor
  · rintro ⟨k, hk, hne, rfl⟩
    exact ⟨fun he => hne ((List.Nodup.getElem_inj_iff h).1 he), List.getElem_mem _⟩
  · rintro ⟨h1, h2⟩
    obtain ⟨k, hk, rfl⟩ := List.mem_iff_getElem.1 h2
    exact ⟨k, hk, fun he => h1 (by subst he; rfl), rfl⟩

theorem append_spec {S : List (Fin N)} (h : S.Nodup) {t : Fin N} (ht : t ∉ S) :
    (S ++ [t]).Nodup ∧ (S ++ [t]).toFinset = insert t S.toFinset := by
  constructor
  · rw [List.nodup_append]
    refine ⟨h, by simp, ?_⟩
    intro a ha b hb
    simp only [List.mem_singleton] at hb
    subst hb; rintro rfl; exact ht ha
  · ext j; simp [or_comm]

theorem nodup_length_lt {S : List (Fin N)} (h : S.Nodup) {t : Fin N} (ht : t ∉ S) : S.length < N := by
  have := (append_spec h ht).1.length_le_card
  simpa using this

/-- any of the moves of the add-exchange-delete chain -/
def AnyMove (S T : Finset (Fin N)) : Prop := AddDeleteMove S T ∨ ExchangeMove S T

theorem aedStep_good {s s' : AedSt N} (hs : GoodA K s) (h : (aedStep K s).Possible (.ok s')) :
    GoodA K s' ∧ AnyMove s.S.toFinset s'.S.toFinset := by
  rw [aedStep, possible_andThen] at h
  rcases h with ⟨i, -, h⟩ | ⟨e, -, h⟩
  · rw [possible_andThen] at h
    rcases h with ⟨t, ht, h⟩ | ⟨e, -, h⟩
    · rw [possible_choiceO_ok, mem_outside] at ht
      rw [Possible.bind_iff] at h
      obtain ⟨m, -, h⟩ := h
      have hlt := nodup_length_lt hs.1.1 ht
      have hltR : (s.S.length : ℝ) < N := by exact_mod_cast hlt
      obtain ⟨a1, a2⟩ := append_spec hs.1.1 ht
      cases m with
      | stay =>
        rw [aedBranch, Possible.ret_iff] at h; cases h
        exact ⟨hs, Or.inl (.stay _)⟩
      | add =>
        rw [aedBranch] at h
        rcases aedMoveTo_good (by
            rw [hs.2.2]; apply div_pos <;> [positivity; linarith]) hs a1 (by simp [hs.2.2]) h with rfl | ⟨rfl, hg⟩
        · exact ⟨hs, Or.inl (.stay _)⟩
        · refine ⟨hg, Or.inl ?_⟩
          simp only [a2]
          exact .add _ _ (by simpa using ht)
      | exchange =>
        rw [aedBranch] at h
        split at h
        · rename_i hi
          obtain ⟨e1, e2⟩ := eraseIdx_spec hs.1.1 hi
          have ht' : t ∉ s.S.eraseIdx i := fun hm => ht (List.mem_of_mem_eraseIdx hm)
          obtain ⟨b1, b2⟩ := append_spec e1 ht'
          rcases aedMoveTo_good one_pos hs b1 (by
            rw [hs.2.2]; simp [List.length_eraseIdx, hi]; omega) h with rfl | ⟨rfl, hg⟩
          · exact ⟨hs, Or.inl (.stay _)⟩
          · refine ⟨hg, Or.inr ?_⟩
            simp only [b2, e2]
            exact .exchange _ _ _ (by simp) (by simpa using ht)
        · rw [Possible.ret_iff] at h; cases h
      | delete =>
        rw [aedBranch] at h
        split at h
        · rename_i hi
          obtain ⟨e1, e2⟩ := eraseIdx_spec hs.1.1 hi
          rcases aedMoveTo_good (by
            rw [hs.2.2]
            have : (0:ℝ) < s.S.length := by exact_mod_cast (by omega : 0 < s.S.length)
            apply div_pos <;> linarith) hs e1 (by
            rw [hs.2.2]; simp [List.length_eraseIdx, hi]) h with rfl | ⟨rfl, hg⟩
          · exact ⟨hs, Or.inl (.stay _)⟩
          · refine ⟨hg, Or.inl ?_⟩
            simp only [e2]
            exact .delete _ _ (by simp)
        · rw [Possible.ret_iff] at h; cases h
    · cases h
  · cases h

theorem possible_aedMove_zero {m : Move} (h : (aedMove 0).Possible m) : m = .add ∨ m = .stay := by
  obtain ⟨w, hm, hw⟩ := h
  simp only [aedMove, List.mem_cons, Prod.mk.injEq, List.not_mem_nil, or_false] at hm
  rcases hm with ⟨rfl, -⟩ | ⟨rfl, rfl⟩ | ⟨rfl, rfl⟩ | ⟨rfl, -⟩
  · exact Or.inl rfl
  · norm_num at hw
  · norm_num at hw
  · exact Or.inr rfl

theorem aedStep_raise {s : AedSt N} {e} (hs : s.S.Nodup) (hsz : s.size = s.S.length)
    (h : (aedStep K s).Possible (.raise e)) : e = .valueError ∧ s.S.length = N := by
  rw [aedStep, possible_andThen] at h
  rcases h with ⟨i, hi, h⟩ | ⟨e', h1, h⟩
  · rw [possible_andThen] at h
    rcases h with ⟨t, ht, h⟩ | ⟨e', h1, h⟩
    · rw [Possible.bind_iff] at h
      obtain ⟨m, hm, h⟩ := h
      rw [possible_choiceO_ok, List.mem_range] at hi
      by_cases h0 : s.size = 0
      · rw [h0] at hm
        simp only [Nat.cast_zero, zero_div] at hm
        rcases possible_aedMove_zero hm with rfl | rfl
        · rw [aedBranch] at h; exact absurd h aedMoveTo_raise
        · rw [aedBranch, Possible.ret_iff] at h; cases h
      · rw [if_neg h0, hsz] at hi
        cases m with
        | add => rw [aedBranch] at h; exact absurd h aedMoveTo_raise
        | stay => rw [aedBranch, Possible.ret_iff] at h; cases h
        | exchange => rw [aedBranch, if_pos hi] at h; exact absurd h aedMoveTo_raise
        | delete => rw [aedBranch, if_pos hi] at h; exact absurd h aedMoveTo_raise
    · cases h
      rw [possible_choiceO_raise, outside_ne_nil hs] at h1
      exact ⟨h1.2, h1.1⟩
  · cases h
    rw [possible_choiceO_raise] at h1
    refine ⟨h1.2, ?_⟩
    have := congrArg List.length h1.1
    simp only [List.length_range, List.length_nil] at this
    split at this
    · omega
    · contradiction

end Verif.Model
