import Verif.Lemmas.ErrMass

/-!
Processes with several `FiniteDPP` objects: law of what happens to one of them.
-/

set_option linter.unusedSectionVars false

namespace Verif.Spec
open Verif Verif.Model

/-- the calls made on object `i`, in order -/
def callsOn {ι : Type} [DecidableEq ι] (i : ι) (cs : List (ι × Cmd)) : List Cmd :=
  (cs.filter fun c => c.1 = i).map Prod.snd

end Verif.Spec

namespace Verif.Lemmas.Err
open Verif Verif.Model Verif.Spec Verif.Dist Relation

section
variable {N : ℕ} {Info : Type} (env : Env N Info)

theorem mem_snd {α β : Type*} {d : Dist ℝ (α × β)} {x : α × β} (h : Mem d x) : Mem (d.map Prod.snd) x.2 :=
  mem_map.2 ⟨x, h, rfl⟩

theorem nn_upd {o o' : Obj N Info} (hu : ReflTransGen (Upd env) o o') :
    (o.Kvals ≠ none → o'.Kvals ≠ none) ∧ (o.Lvals ≠ none → o'.Lvals ≠ none) := by
  induction hu with
  | refl => exact ⟨id, id⟩
  | tail _ hu ih =>
    obtain ⟨h1, h2⟩ := ih
    cases hu <;> refine ⟨fun h => ?_, fun h => ?_⟩ <;>
      first | exact h1 h | exact h2 h | simp

theorem Settled.rtg {o o' : Obj N Info} (h : Settled env o) (hu : ReflTransGen (Upd env) o o') :
    Settled env o' := by
  rcases h with h | h | h
  · left
    intro Phi hP
    rw [upd_const' env hu] at hP
    exact h Phi hP
  · exact Or.inr (Or.inl ((nn_upd env hu).1 h))
  · exact Or.inr (Or.inr ((nn_upd env hu).2 h))

theorem stepE_upd (c : Cmd) (fl : Bool) (o : Obj N Info) (h : fl = true → Settled env o) (x)
    (hx : Mem (stepE env c fl o) x) : ReflTransGen (Upd env) o x.2.1 := by
  have h1 := mem_snd hx
  rw [stepE_refines env c fl o h] at h1
  exact step_upd env c o _ h1

/-! a call that changes the state leaves the object with eigenvalues -/

theorem compute_set (fuel : ℕ) : ∀ (o : Obj N Info),
    ((computeKFE env fuel false o).1 = true → (computeKFE env fuel false o).2.1.Kvals ≠ none) ∧
    ((computeLFE env fuel false o).1 = true → (computeLFE env fuel false o).2.1.Kvals ≠ none) := by
  induction fuel with
  | zero => intro o; simp [computeKFE, computeLFE]
  | succ fuel ih =>
    intro o
    constructor
    · rw [computeKFE]
      split
      · intro h; exact absurd h (by simp)
      split
      · split <;> (intro h; exact absurd h (by simp))
      split
      · intro h; exact absurd h (by simp)
      split
      · exact (ih _).1
      split
      · split
        · intro h; exact absurd h (by simp)
        · dsimp only
          split
          · intro h; exact absurd h (by simp)
          · exact (ih _).1
      · have h2 := (ih o).2
        generalize computeLFE env fuel false o = a at h2
        obtain ⟨f, o', r⟩ := a
        simp only at h2
        cases r with
        | raise e => exact h2
        | ok u =>
          simp only
          cases f with
          | false => exact (ih _).1
          | true =>
            intro _
            have h3 := (compute_refines env fuel true o').1
            rw [h3]
            exact (nn_upd env (compute_upd env fuel o').1).1 (h2 rfl)
    · rw [computeLFE]
      split
      · intro h; exact absurd h (by simp)
      split
      · intro h; exact absurd h (by simp)
      split
      · split <;> (intro h; exact absurd h (by simp))
      split
      · intro h; exact absurd h (by simp)
      split
      · intro h; exact absurd h (by simp)
      split
      · rename_i v hv
        split
        · intro _; simp [hv]
        · intro _
          rw [(compute_refines env fuel true _).2]
          exact (nn_upd env (compute_upd env fuel _).2).1 (by simp [hv])
      split
      · split
        · intro h; exact absurd h (by simp)
        · dsimp only
          split
          · intro h; exact absurd h (by simp)
          · exact (ih _).2
      · have h2 := (ih o).1
        generalize computeKFE env fuel false o = a at h2
        obtain ⟨f, o', r⟩ := a
        simp only at h2
        cases r with
        | raise e => exact h2
        | ok u =>
          simp only
          cases f with
          | false => exact (ih _).2
          | true =>
            intro _
            have h3 := (compute_refines env fuel true o').2
            rw [h3]
            exact (nn_upd env (compute_upd env fuel o').2).1 (h2 rfl)

theorem set_ret {fl : Bool} {y : Obj N Info × Outcome (List (Fin N))} {x}
    (h : Mem (Dist.ret (fl, y) : CallE N Info) x) (hs : fl = true → y.1.Kvals ≠ none) :
    x.1 = true → x.2.1.Kvals ≠ none := by
  rw [mem_ret] at h; subst h; exact hs

include env in
theorem set_exact {fl : Bool} {o : Obj N Info} {d x} (h : Mem (withFlag fl (recordExact o d)) x)
    (hs : fl = true → o.Kvals ≠ none) : x.1 = true → x.2.1.Kvals ≠ none := by
  rw [withFlag, mem_map] at h
  obtain ⟨r, hr, rfl⟩ := h
  intro hf
  exact (nn_upd env (recordExact_upd env hr)).1 (hs hf)

include env in
theorem set_info {fl : Bool} {o : Obj N Info} {d x} (h : Mem (withFlag fl (recordInfo o d)) x)
    (hs : fl = true → o.Kvals ≠ none) : x.1 = true → x.2.1.Kvals ≠ none := by
  rw [withFlag, mem_map] at h
  obtain ⟨r, hr, rfl⟩ := h
  intro hf
  exact (nn_upd env (recordInfo_upd env hr)).1 (hs hf)

include env in
theorem set_chain {fl : Bool} {o : Obj N Info} {d x} (h : Mem (withFlag fl (recordChain o d)) x)
    (hs : fl = true → o.Kvals ≠ none) : x.1 = true → x.2.1.Kvals ≠ none := by
  rw [withFlag, mem_map] at h
  obtain ⟨r, hr, rfl⟩ := h
  intro hf
  exact (nn_upd env (recordChain_upd env hr)).1 (hs hf)

/-- in the state `raise`, on an object that has eigenvalues -/
theorem exactFE_kv (mode : String) (fuel : ℕ) (fl : Bool) (o : Obj N Info) (hs : fl = true → o.Kvals ≠ none)
    (ih : ∀ (o : Obj N Info) x, Mem (sampleExactFE env fuel false o mode) x → x.1 = true → x.2.1.Kvals ≠ none)
    (x) (h : Mem (sampleExactFE env fuel fl o mode) x) : x.1 = true → x.2.1.Kvals ≠ none := by
  cases fl with
  | false => exact ih o x h
  | true =>
    intro _
    have h1 := mem_snd h
    rw [sampleExactFE_refines env mode fuel true o (fun _ => Or.inr (Or.inl (hs rfl)))] at h1
    exact (nn_upd env (sampleExact_upd env fuel o mode _ h1)).1 (hs rfl)

set_option maxHeartbeats 1000000 in
theorem sampleExactFE_set (mode : String) (fuel : ℕ) : ∀ (o : Obj N Info) x,
    Mem (sampleExactFE env fuel false o mode) x → x.1 = true → x.2.1.Kvals ≠ none := by
  induction fuel with
  | zero => intro o x h; exact set_ret h (by simp)
  | succ fuel ih =>
    intro o x h
    rw [sampleExactFE] at h
    generalize ({ o with mode := mode } : Obj N Info) = o1 at h
    clear o
    unfold sampleExactBodyE at h
    have hk : (computeKE env false o1).1 = true → (computeKE env false o1).2.1.Kvals ≠ none :=
      (compute_set env _ o1).1
    have hL : (computeLE env false o1).1 = true → (computeLE env false o1).2.1.Kvals ≠ none :=
      (compute_set env _ o1).2
    generalize computeKE env false o1 = ck at h hk
    generalize computeLE env false o1 = cl at h hL
    rcases ck with ⟨fk, ok', _ | _⟩ <;> rcases cl with ⟨f2, ol', _ | _⟩ <;> dsimp only at h hk hL <;>
    repeat' (first
      | exact set_ret h (fun hh => absurd hh Bool.false_ne_true)
      | exact set_ret h hk
      | exact set_ret h hL
      | exact set_exact env h hk
      | exact set_exact env h (fun hh => absurd hh Bool.false_ne_true)
      | exact set_info env h (fun hh => absurd hh Bool.false_ne_true)
      | exact ih _ _ h
      | exact exactFE_kv env mode fuel _ _ hL ih _ h
      | split at h)

theorem kdppFE_kv (size : ℕ) (mode : String) (fuel : ℕ) (fl : Bool) (o : Obj N Info)
    (hs : fl = true → o.Kvals ≠ none)
    (ih : ∀ (o : Obj N Info) x, Mem (sampleExactKDppFE env fuel false o size mode) x →
      x.1 = true → x.2.1.Kvals ≠ none)
    (x) (h : Mem (sampleExactKDppFE env fuel fl o size mode) x) : x.1 = true → x.2.1.Kvals ≠ none := by
  cases fl with
  | false => exact ih o x h
  | true =>
    intro _
    have h1 := mem_snd h
    rw [sampleExactKDppFE_refines env size mode fuel true o (fun _ => Or.inr (Or.inl (hs rfl)))] at h1
    exact (nn_upd env (sampleExactKDpp_upd env fuel o size mode _ h1)).1 (hs rfl)

set_option maxHeartbeats 1000000 in
theorem sampleExactKDppFE_set (size : ℕ) (mode : String) (fuel : ℕ) : ∀ (o : Obj N Info) x,
    Mem (sampleExactKDppFE env fuel false o size mode) x → x.1 = true → x.2.1.Kvals ≠ none := by
  induction fuel with
  | zero => intro o x h; exact set_ret h (by simp)
  | succ fuel ih =>
    intro o x h
    rw [sampleExactKDppFE] at h
    generalize ({ o with mode := mode, sizeK := size } : Obj N Info) = o1 at h
    clear o
    unfold sampleExactKDppBodyE at h
    have hL : (computeLE env false o1).1 = true → (computeLE env false o1).2.1.Kvals ≠ none :=
      (compute_set env _ o1).2
    generalize computeLE env false o1 = cl at h hL
    rcases cl with ⟨f2, ol', _ | _⟩ <;> dsimp only at h hL <;>
    repeat' (first
      | exact set_ret h (fun hh => absurd hh Bool.false_ne_true)
      | exact set_ret h hL
      | exact set_ret h (fun _ => Option.ne_none_iff_exists'.2 ⟨_, ‹o1.Kvals = some _›⟩)
      | exact set_exact env h hL
      | exact set_exact env h (fun hh => absurd hh Bool.false_ne_true)
      | exact set_info env h (fun hh => absurd hh Bool.false_ne_true)
      | exact ih _ _ h
      | exact kdppFE_kv env size mode fuel _ _ hL ih _ h
      | (refine kdppFE_kv env size mode fuel _ _ ?_ ih _ h
         exact fun _ => Option.ne_none_iff_exists'.2 ⟨_, ‹o1.Kvals = some _›⟩)
      | split at h)

theorem sampleMcmcE_set (mode : String) (size : Option ℕ) (o : Obj N Info) (x)
    (h : Mem (sampleMcmcE env false o mode size) x) : x.1 = true → x.2.1.Kvals ≠ none := by
  rw [sampleMcmcE] at h
  generalize ({ o with mode := mode } : Obj N Info) = o1 at h
  unfold sampleMcmcBodyE at h
  have hk : (computeKE env false o1).1 = true → (computeKE env false o1).2.1.Kvals ≠ none :=
    (compute_set env _ o1).1
  have hL : (computeLE env false o1).1 = true → (computeLE env false o1).2.1.Kvals ≠ none :=
    (compute_set env _ o1).2
  generalize computeKE env false o1 = ck at h hk
  generalize computeLE env false o1 = cl at h hL
  rcases ck with ⟨fk, ok', _ | _⟩ <;> rcases cl with ⟨f2, ol', _ | _⟩ <;> dsimp only at h hk hL <;>
  repeat' (first
    | exact set_ret h (fun hh => absurd hh Bool.false_ne_true)
    | exact set_ret h hk
    | exact set_ret h hL
    | exact set_chain env h hk
    | exact set_chain env h hL
    | exact set_chain env h (fun hh => absurd hh Bool.false_ne_true)
    | split at h)

theorem stepE_set (c : Cmd) (o : Obj N Info) (x) (h : Mem (stepE env c false o) x) :
    x.1 = true → x.2.1.Kvals ≠ none := by
  cases c with
  | exact mode =>
    rw [stepE, mem_map] at h
    obtain ⟨a, ha, rfl⟩ := h
    exact sampleExactFE_set env mode _ o a ha
  | exactK size mode =>
    rw [stepE, mem_map] at h
    obtain ⟨a, ha, rfl⟩ := h
    exact sampleExactKDppFE_set env size mode _ o a ha
  | mcmc mode size =>
    rw [stepE, mem_map] at h
    obtain ⟨a, ha, rfl⟩ := h
    exact sampleMcmcE_set env mode size o a ha
  | mcmcK size mode =>
    rw [stepE, mem_map] at h
    obtain ⟨a, ha, rfl⟩ := h
    exact sampleMcmcE_set env _ _ _ a ha
  | computeK => rw [stepE, mem_ret] at h; subst h; exact (compute_set env _ o).1
  | computeL => rw [stepE, mem_ret] at h; subst h; exact (compute_set env _ o).2
  | flush => rw [stepE, mem_ret] at h; subst h; simp

end

/-! ### processes -/

section
variable {ι : Type} [DecidableEq ι] {n : ι → ℕ} {Info : Type} {env : ∀ i, Env (n i) Info}

/-- Law of object `i`, as long as an invariant keeps it away from the division by zero. -/
theorem runProc_law (hm : ∀ j, EnvMass (env j)) (i : ι) (P : Proc n Info → Prop)
    (hP : ∀ s, P s → s.raises = true → Settled (env i) (s.obj i))
    (hS : ∀ s, P s → ∀ j c r, Mem (stepE (env j) c s.raises (s.obj j)) r → P (s.set j r.1 r.2.1 r.2.2))
    (f : Obj (n i) Info → List (Outcome (Option (List (Fin (n i))))) → ℝ) :
    ∀ (cs : List (ι × Cmd)) (s : Proc n Info), P s →
      (runProc env cs s).E (fun s' => f (s'.obj i) (s'.log i))
        = (runHist (env i) (callsOn i cs) (s.obj i)).E (fun r => f r.1 (s.log i ++ r.2)) := by
  intro cs
  induction cs generalizing f with
  | nil => intro s _; simp [runProc, callsOn, runHist]
  | cons jc cs ih =>
    obtain ⟨j, c⟩ := jc
    intro s hs
    rw [runProc, E_bind]
    by_cases hj : j = i
    · subst hj
      have hc : callsOn j ((j, c) :: cs) = c :: callsOn j cs := by simp [callsOn]
      rw [hc, runHist, E_bind, ← stepE_refines (env j) c s.raises (s.obj j) (hP s hs), E_map]
      refine E_congr fun r w hr => ?_
      rw [ih f _ (hS s hs j c r ⟨w, hr⟩), E_map]
      have h1 : (s.set j r.1 r.2.1 r.2.2).obj j = r.2.1 := by simp [Proc.set]
      have h2 : (s.set j r.1 r.2.1 r.2.2).log j = s.log j ++ [r.2.2] := by simp [Proc.set]
      rw [h1, h2]
      refine E_congr fun q _ _ => ?_
      simp
    · have hc : callsOn i ((j, c) :: cs) = callsOn i cs := by simp [callsOn, hj]
      rw [hc]
      have : (stepE (env j) c s.raises (s.obj j)).E (fun r =>
          (runProc env cs (s.set j r.1 r.2.1 r.2.2)).E fun s' => f (s'.obj i) (s'.log i))
          = (stepE (env j) c s.raises (s.obj j)).E (fun _ =>
            1 * (runHist (env i) (callsOn i cs) (s.obj i)).E (fun r => f r.1 (s.log i ++ r.2))) := by
        refine E_congr fun r w hr => ?_
        rw [ih f _ (hS s hs j c r ⟨w, hr⟩), one_mul]
        have h1 : (s.set j r.1 r.2.1 r.2.2).obj i = s.obj i := by
          simp [Proc.set, Function.update_of_ne (Ne.symm hj)]
        have h2 : (s.set j r.1 r.2.1 r.2.2).log i = s.log i := by
          simp [Proc.set, Function.update_of_ne (Ne.symm hj)]
        rw [h1, h2]
      rw [this, E_mul_right]
      have hmass := stepE_mass (hm j) c s.raises (s.obj j)
      rw [Dist.mass] at hmass
      rw [hmass, one_mul]

/-- the object is settled, whatever the others do -/
theorem law_settled (hm : ∀ j, EnvMass (env j)) (i : ι) (cs : List (ι × Cmd)) (s : Proc n Info)
    (hs : Settled (env i) (s.obj i))
    (f : Obj (n i) Info → List (Outcome (Option (List (Fin (n i))))) → ℝ) :
    (runProc env cs s).E (fun s' => f (s'.obj i) (s'.log i))
      = (runHist (env i) (callsOn i cs) (s.obj i)).E (fun r => f r.1 (s.log i ++ r.2)) := by
  refine runProc_law hm i (fun s => Settled (env i) (s.obj i)) (fun s h _ => h) ?_ f cs s hs
  intro s hs j c r hr
  by_cases hj : j = i
  · subst hj
    have h1 : (s.set j r.1 r.2.1 r.2.2).obj j = r.2.1 := by simp [Proc.set]
    simp only [h1]
    exact hs.rtg (env j) (stepE_upd (env j) c s.raises _ (fun _ => hs) r hr)
  · have h1 : (s.set j r.1 r.2.1 r.2.2).obj i = s.obj i := by
      simp [Proc.set, Function.update_of_ne (Ne.symm hj)]
    simp only [h1]; exact hs

/-- the others do not change the state -/
theorem law_quiet (hm : ∀ j, EnvMass (env j)) (i : ι) (cs : List (ι × Cmd)) (s : Proc n Info)
    (h0 : s.raises = false) (hq : ∀ j, j ≠ i → Quiet (s.obj j))
    (f : Obj (n i) Info → List (Outcome (Option (List (Fin (n i))))) → ℝ) :
    (runProc env cs s).E (fun s' => f (s'.obj i) (s'.log i))
      = (runHist (env i) (callsOn i cs) (s.obj i)).E (fun r => f r.1 (s.log i ++ r.2)) := by
  refine runProc_law hm i (fun s => (s.raises = true ∧ Settled (env i) (s.obj i)) ∨
    (s.raises = false ∧ ∀ j, j ≠ i → Quiet (s.obj j))) ?_ ?_ f cs s (Or.inr ⟨h0, hq⟩)
  · rintro s (⟨_, h⟩ | ⟨h, _⟩) hr
    · exact h
    · rw [h] at hr; cases hr
  rintro s (⟨hr0, hs⟩ | ⟨hr0, hs⟩) j c r hr
  · left
    refine ⟨?_, ?_⟩
    · rw [hr0] at hr
      exact stepE_true (env j) c _ r hr
    · by_cases hj : j = i
      · subst hj
        have h1 : (s.set j r.1 r.2.1 r.2.2).obj j = r.2.1 := by simp [Proc.set]
        rw [h1]
        exact hs.rtg (env j) (stepE_upd (env j) c s.raises _ (fun _ => hs) r hr)
      · have h1 : (s.set j r.1 r.2.1 r.2.2).obj i = s.obj i := by
          simp [Proc.set, Function.update_of_ne (Ne.symm hj)]
        rw [h1]; exact hs
  · have hu := stepE_upd (env j) c s.raises _ (fun h => by rw [hr0] at h; cases h) r hr
    by_cases hj : j = i
    · subst hj
      have h1 : (s.set j r.1 r.2.1 r.2.2).obj j = r.2.1 := by simp [Proc.set]
      cases hf : r.1 with
      | true =>
        left
        refine ⟨by simp [Proc.set], ?_⟩
        rw [hr0] at hr
        rw [← hf, h1]
        exact Or.inr (Or.inl (stepE_set (env j) c _ r hr hf))
      | false =>
        right
        refine ⟨by simp [Proc.set], fun k hk => ?_⟩
        have h3 : (s.set j false r.2.1 r.2.2).obj k = s.obj k := by
          simp [Proc.set, Function.update_of_ne hk]
        rw [h3]; exact hs k hk
    · right
      refine ⟨?_, fun k hk => ?_⟩
      · exact (stepE_quiet (env j) c s.raises _ (hs j hj) r hr).trans hr0
      · by_cases hkj : k = j
        · subst hkj
          have h3 : (s.set k r.1 r.2.1 r.2.2).obj k = r.2.1 := by simp [Proc.set]
          rw [h3]
          exact (hs k hk).rtg (env k) hu
        · have h3 : (s.set j r.1 r.2.1 r.2.2).obj k = s.obj k := by
            simp [Proc.set, Function.update_of_ne hkj]
          rw [h3]
          exact hs k hk

end
end Verif.Lemmas.Err
