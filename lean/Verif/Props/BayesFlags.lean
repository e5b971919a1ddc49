import Verif.Model.BayesFlags
import Verif.Props.Bayesian

/-! # Property C290: `is_updated` tells what the posterior object will answer -/

namespace PyV.Props

open PyV PyV.Bayes

theorem step_updated {factor : Factor} {o : Niw} {smu ss nObs} {P : Params o.n} (hu : update factor o smu ss nObs = .ok P) :
    isUpdated (step factor o (.update smu ss nObs)) = true := by
  have : step factor o (.update smu ss nObs) = { o with post := some P } := by simp only [step, hu]
  rw [this]; rfl

theorem updated_stays {factor : Factor} {o : Niw} (h : isUpdated o = true) (a : Bayes.Op) : isUpdated (step factor o a) = true := by
  cases a with
  | update smu ss nObs =>
    cases hu : update factor o smu ss nObs with
    | ok P => exact step_updated hu
    | error e =>
      have : step factor o (.update smu ss nObs) = o := by simp only [step, hu]
      rw [this]; exact h
  | writeMu i x =>
    unfold isUpdated at h ⊢
    cases hp : o.post with
    | none => rw [hp] at h; cases h
    | some P =>
      cases hi : o.index with
      | none =>
        simp only [step]
        split
        · rfl
        · rename_i hno; exact (hno P hp hi).elim
      | some l =>
        have : step factor o (.writeMu i x) = o := by
          simp only [step]
          split
          · rename_i h2; rw [hi] at h2; cases h2
          · rfl
        rw [this, hp]; rfl
  | _ => exact h

theorem updated_run {factor : Factor} {o : Niw} (h : isUpdated o = true) (ops : List Bayes.Op) : isUpdated (run factor o ops) = true := by
  induction ops generalizing o with
  | nil => exact h
  | cons a ops ih => exact ih (updated_stays h a)

/-- **C290** (history) After any history of calls, failed or not, and of writes to returned arrays, `is_updated` is true exactly if one of the
`update` calls in the history is one that succeeds on the freshly constructed object. -/
theorem C290_history {factor : Factor} {mu sigma t0 nu0} {o : Niw} (ho : init factor mu sigma t0 nu0 = .ok o) (ops : List Bayes.Op) :
    isUpdated (run factor o ops) = true ↔
      ∃ smu ss nObs P, Bayes.Op.update smu ss nObs ∈ ops ∧ update factor o smu ss nObs = .ok P := by
  have h0 := init_post ho
  constructor
  · intro h
    by_contra hno
    push Not at hno
    have := run_fail (factor := factor) h0 ops (fun smu ss nObs hm => by
      cases hu : update factor o smu ss nObs with
      | error e => exact ⟨e, rfl⟩
      | ok P => exact absurd hu (hno smu ss nObs P hm))
    rw [this, isUpdated, h0] at h
    cases h
  · rintro ⟨smu, ss, nObs, P, hm, hu⟩
    induction ops with
    | nil => cases hm
    | cons a ops ih =>
      have key : isUpdated (step factor o a) = true ∨ step factor o a = o := by
        by_cases hf : ∀ smu ss nObs, a = .update smu ss nObs → ∃ e, update factor o smu ss nObs = .error e
        · exact Or.inr (step_fail h0 hf)
        · push Not at hf
          obtain ⟨smu', ss', n', rfl, hne⟩ := hf
          left
          cases hu' : update factor o smu' ss' n' with
          | error e => exact absurd hu' (hne e)
          | ok P' => exact step_updated hu'
      rcases List.mem_cons.mp hm with rfl | hm
      · exact updated_run (step_updated hu) ops
      · show isUpdated (run factor (step factor o a) ops) = true
        rcases key with h | h
        · exact updated_run h ops
        · rw [h]; exact ih hm

/-- **C290** (never back) Once true it stays true, whatever is called or written afterwards. -/
theorem C290_stays {factor : Factor} {o : Niw} (before after : List Bayes.Op) (h : isUpdated (run factor o before) = true) :
    isUpdated (run factor o (before ++ after)) = true := by
  rw [run, List.foldl_append]
  exact updated_run h after

/-- **C290** (what it announces) When it is false every getter raises `RuntimeError`; when it is true none does, and a further `update` raises
`RuntimeError`. -/
theorem C290_announces (factor : Factor) (ppf : ℝ → ℕ → ℝ) (o : Niw) :
    (∀ g, ask ppf o g = .error .runtimeError ↔ isUpdated o = false) ∧
      (isUpdated o = true → ∀ smu ss nObs, update factor o smu ss nObs = .error .runtimeError) := by
  constructor
  · intro g
    cases h : o.post with
    | none => exact ⟨fun _ => by rw [isUpdated, h]; rfl, fun _ => ask_none h g⟩
    | some P =>
      have : isUpdated o = true := by rw [isUpdated, h]; rfl
      rw [this]
      refine ⟨fun hg => ?_, fun hg => by cases hg⟩
      exfalso
      cases g <;> simp only [ask, getMuCe, getSMu, getSigmaCe, credRadiusMu, credRadiusSigma, chi2Quantile, h, Except.map] at hg <;>
        first
        | (cases hg; done)
        | (split_ifs at hg <;> simp at hg)
  · intro h smu ss nObs
    unfold update
    rw [if_pos (show o.post.isSome = true from h)]

/-- **C290** (quantile) `chi2_quantile(..., sqrt=True)` fails exactly when the plain quantile does, with the same error; otherwise it is the
non-negative number whose square is the plain quantile (if that is not negative). -/
theorem C290_root (ppf : ℝ → ℕ → ℝ) (p : ℝ) (dof : ℕ) :
    (∀ e, chi2Root ppf p dof = .error e ↔ chi2Quantile ppf p dof = .error e) ∧
      ∀ q, chi2Quantile ppf p dof = .ok q → 0 ≤ q → ∃ r, chi2Root ppf p dof = .ok r ∧ 0 ≤ r ∧ r ^ 2 = q := by
  unfold chi2Root chi2Quantile
  by_cases h : ¬ (0 < p ∧ p < 1)
  · rw [if_pos h, if_pos h]
    exact ⟨fun e => Iff.rfl, fun q hq => by cases hq⟩
  · rw [if_neg h, if_neg h]
    refine ⟨fun e => by simp, fun q hq h0 => ⟨_, rfl, Real.sqrt_nonneg _, ?_⟩⟩
    injection hq with hq
    rw [hq]; exact Real.sq_sqrt h0

/-- Both values of the flag occur: an object whose updates fail, and one holding a posterior. -/
example : isUpdated ⟨1, ![0], 1, 1, 1, none, none⟩ = false ∧ isUpdated ⟨1, ![0], 1, 1, 1, none, some ⟨1, ![0], 1, 1⟩⟩ = true := ⟨rfl, rfl⟩

end PyV.Props
