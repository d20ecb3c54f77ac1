import Verif.Model.OptNames
import Verif.Props.Optimizer
import Mathlib.Tactic.Linarith
import Mathlib.Tactic.NormNum

/-!
# C184: optimisers by name, as methods, and for new parameters
-/
set_option autoImplicit false

namespace Sk.OptNames

open Sk.Opt (Cfg Kind St Mat getUpdate updateParams fresh)

/-- **C184, names.** `NewSolver` and `NewOptimizer` give the same optimiser for every name: the documented one for the five documented names, and a panic for every other. -/
theorem C184_names (name : String) :
    newSolver name = newOptimizer name ∧
    (newSolver name ≠ none ↔ name ∈ ["sgd", "adagrad", "rmsprop", "adadelta", "adam"]) ∧
    ∀ s, newSolver name = some s → s.batchPart = 1 ∧ 0 < s.cfg.stepSize ∧ 0 < s.cfg.eps ∧
      s.cfg.kind = (if name = "adagrad" then .adagrad else if name = "rmsprop" then .rmsprop else if name = "adadelta" then .adadelta else if name = "adam" then .adam else .sgd) ∧
      s.cfg.momentum = (if name = "sgd" then 9 / 10 else 0) ∧ (s.cfg.kind = .adam → 0 ≤ s.cfg.beta₁ ∧ s.cfg.beta₁ < 1 ∧ 0 ≤ s.cfg.beta₂ ∧ s.cfg.beta₂ < 1) ∧ (s.cfg.kind = .rmsprop ∨ s.cfg.kind = .adadelta → 0 < s.cfg.gamma ∧ s.cfg.gamma < 1) := by
  have hl : newSolver name = if name = "sgd" then some newSGD else if name = "adagrad" then some newAdagrad else if name = "rmsprop" then some newRMSProp else if name = "adadelta" then some newAdadelta else if name = "adam" then some newAdam else none := by
    unfold newSolver solvers
    simp only [List.lookup]
    repeat' split
    all_goals simp_all
  by_cases h1 : name = "sgd"
  · subst h1
    rw [hl]
    refine ⟨rfl, by simp, ?_⟩
    rintro s ⟨⟩
    simp [newSGD]
  by_cases h2 : name = "adagrad"
  · subst h2
    rw [hl]
    refine ⟨rfl, by simp, ?_⟩
    rintro s ⟨⟩
    simp [newSGD, newAdagrad]
  by_cases h3 : name = "rmsprop"
  · subst h3
    rw [hl]
    refine ⟨rfl, by simp, ?_⟩
    rintro s ⟨⟩
    simp [newSGD, newRMSProp]
    norm_num
  by_cases h4 : name = "adadelta"
  · subst h4
    rw [hl]
    refine ⟨rfl, by simp, ?_⟩
    rintro s ⟨⟩
    simp [newSGD, newAdadelta]
    norm_num
  by_cases h5 : name = "adam"
  · subst h5
    rw [hl]
    refine ⟨rfl, by simp, ?_⟩
    rintro s ⟨⟩
    simp [newAdam]
    norm_num
  · rw [hl, newOptimizer]
    simp [h1, h2, h3, h4, h5]

/-- **C184, defaults.** The settings of the optimisers by name, as a caller of `NewOptimizer` finds them: step sizes, clipping (adagrad only, at norm 10), and the other factors. -/
theorem C184_defaults (name : String) (s : Settings) (h : newOptimizer name = some s) :
    s.cfg.stepSize = (if name = "rmsprop" then 5 / 100 else if name = "adagrad" ∨ name = "adam" then 5 / 10 else 1 / 10 ^ 4) ∧ s.cfg.eps = 1 / 10 ^ 8 ∧ s.cfg.clip = (if name = "adagrad" then 10 else 0) ∧
    (name = "adam" → s.cfg.beta₁ = 9 / 10 ∧ s.cfg.beta₂ = 999 / 1000) ∧ (name ≠ "adam" → s.cfg.gamma = 9 / 10) := by
  unfold newOptimizer at h
  split at h
  · rename_i e
    subst e
    obtain rfl := Option.some.inj h
    simp [newSGD]
    try norm_num
  split at h
  · rename_i e
    subst e
    obtain rfl := Option.some.inj h
    simp [newSGD, newAdagrad]
    try norm_num
  split at h
  · rename_i e
    subst e
    obtain rfl := Option.some.inj h
    simp [newSGD, newAdadelta]
    try norm_num
  split at h
  · rename_i e
    subst e
    obtain rfl := Option.some.inj h
    simp [newSGD, newRMSProp]
    try norm_num
  split at h
  · rename_i e
    subst e
    obtain rfl := Option.some.inj h
    simp [newAdam]
    try norm_num
  · simp at h

/-- **C184 violated, methods.** The methods named after the optimisers all do what `gradientdescent` does, whatever the problem; and so does every `SGDOptimizer` given as a method, whatever its step
size, momentum, clipping and variant. -/
theorem C184_method_violated {P R : Type} (run : Native → P → R) (problem : P) :
    (∀ name ∈ ["sgd", "adagrad", "rmsprop", "adadelta", "adam"], (methods.lookup name).map (fun m => runMethod run m problem) = (methods.lookup "gradientdescent").map (fun m => runMethod run m problem)) ∧
    ∀ s s' : Settings, runMethod run (.optimizer s) problem = runMethod run (.optimizer s') problem := by
  refine ⟨?_, fun _ _ => rfl⟩
  intro name hn
  simp only [List.mem_cons, List.not_mem_nil, or_false] at hn
  rcases hn with rfl | rfl | rfl | rfl | rfl <;> rfl

/-- The methods of gonum are the ones named.
Missing for the full claim: what `C184_method_violated`, `C184_momentum_violated`, `C184_step_violated` refute. -/
theorem C184_method_partial {P R : Type} (run : Native → P → R) (problem : P) :
    (methods.lookup "bfgs").map (fun m => runMethod run m problem) = some (run .bfgs problem) ∧ (methods.lookup "cg").map (fun m => runMethod run m problem) = some (run .cg problem) ∧
    (methods.lookup "gradientdescent").map (fun m => runMethod run m problem) = some (run .gradientDescent problem) ∧ (methods.lookup "lbfgs").map (fun m => runMethod run m problem) = some (run .lbfgs problem) ∧
    (methods.lookup "neldermead").map (fun m => runMethod run m problem) = some (run .nelderMead problem) := ⟨rfl, rfl, rfl, rfl, rfl⟩

variable {n q : ℕ}

/-- **C184, new parameters before any update.** As long as an optimiser has not made an update, `SetTheta` starts it as new, whatever its running averages hold.
Missing for the full claim: `SetTheta` after updates, see `C184_momentum_violated` and `C184_step_violated`. -/
theorem C184_setTheta_partial (c : Cfg) (θ₁ θ₂ G : Mat n q) (s : St n q) (h : s.t = 0) :
    updateParams c (setTheta (θ₁, s) θ₂).2 (setTheta (θ₁, s) θ₂).1 G = updateParams c fresh θ₂ G := by
  have e : Sk.Opt.init c s = Sk.Opt.init c fresh := by
    unfold Sk.Opt.init fresh
    rw [if_pos h, if_pos rfl, h]
  simp only [setTheta, updateParams, getUpdate, e]

/-- **C184 violated, momentum.** An optimiser with momentum that is given new parameters after an update carries the last update over to them: with a zero gradient it moves every parameter whose
predecessor was moved, while a new optimiser leaves them where they are. -/
theorem C184_momentum_violated (c : Cfg) (hk : c.kind ≠ .adam) (hm : 0 < c.momentum) (θ₁ θ₂ : Mat n q) (s : St n q) (ht : s.t ≠ 0) (j : Fin n) (o : Fin q) (hp : s.prev j o ≠ 0) :
    (updateParams c (setTheta (θ₁, s) θ₂).2 (setTheta (θ₁, s) θ₂).1 (fun _ _ => 0)).1 j o ≠ θ₂ j o ∧ (updateParams c fresh θ₂ (fun _ _ => 0)).1 j o = θ₂ j o := by
  have hc : ∀ j o, Sk.Opt.clipped c (fun _ _ => 0 : Mat n q) j o = 0 := by
    intro j o
    unfold Sk.Opt.clipped
    split <;> simp
  have hraw : ∀ s : St n q, (Sk.Opt.raw c s (fun _ _ => 0)).1 j o = 0 := by
    intro s
    unfold Sk.Opt.raw
    cases hkk : c.kind with
    | adam => exact absurd hkk hk
    | _ => simp only [hc, mul_zero, zero_div]
  have hi : Sk.Opt.init c s = s := by rw [Sk.Opt.init, if_neg ht]
  constructor
  · simp only [setTheta, updateParams, getUpdate, hi, if_pos hm, hraw, add_zero]
    intro h
    have : c.momentum * s.prev j o = 0 := by linarith
    rcases mul_eq_zero.1 this with h | h
    · linarith
    · exact hp h
  · simp only [updateParams, getUpdate, if_pos hm, hraw, add_zero]
    simp [Sk.Opt.init, fresh]

/-- **C184 violated, step sizes.** Plain gradient steps without momentum get smaller with every update, and `SetTheta` does not restore them: the first step for the new parameters is strictly
smaller than the first step of a new optimiser, for every gradient that is not zero after clipping. -/
theorem C184_step_violated (c : Cfg) (hk : c.kind = .sgd) (hm : c.momentum = 0) (hs : 0 < c.stepSize) (θ₁ θ₂ G : Mat n q) (s : St n q) (ht : s.t ≠ 0) (j : Fin n) (o : Fin q) (hg : Sk.Opt.clipped c G j o ≠ 0) :
    |(updateParams c (setTheta (θ₁, s) θ₂).2 (setTheta (θ₁, s) θ₂).1 G).1 j o - θ₂ j o| < |(updateParams c fresh θ₂ G).1 j o - θ₂ j o| := by
  have hi : Sk.Opt.init c s = s := by rw [Sk.Opt.init, if_neg ht]
  have e : ∀ s : St n q, (updateParams c s θ₂ G).1 j o - θ₂ j o = -(c.stepSize * 100 / (100 + ((s.t + 1 : ℕ) : ℝ))) * Sk.Opt.clipped c G j o / Real.sqrt ((s.t + 1 : ℕ) : ℝ) := by
    intro s
    have h1 : (Sk.Opt.init c s).t = s.t := by unfold Sk.Opt.init; split <;> rfl
    simp only [updateParams, getUpdate, hm, lt_irrefl, if_false, Sk.Opt.raw, hk, h1]
    ring
  have hpos : 0 < |Sk.Opt.clipped c G j o| := abs_pos.2 hg
  have ab : ∀ k : ℕ, |-(c.stepSize * 100 / (100 + ((k + 1 : ℕ) : ℝ))) * Sk.Opt.clipped c G j o / Real.sqrt ((k + 1 : ℕ) : ℝ)| = c.stepSize * 100 / (100 + ((k + 1 : ℕ) : ℝ)) * |Sk.Opt.clipped c G j o| / Real.sqrt ((k + 1 : ℕ) : ℝ) := by
    intro k
    have h1 : (0 : ℝ) ≤ c.stepSize * 100 / (100 + ((k + 1 : ℕ) : ℝ)) := by positivity
    rw [abs_div, abs_mul, abs_neg, abs_of_nonneg h1, abs_of_nonneg (Real.sqrt_nonneg _)]
  show |(updateParams c s θ₂ G).1 j o - θ₂ j o| < _
  rw [e, e, ab, ab]
  have ht' : 1 ≤ s.t := Nat.one_le_iff_ne_zero.2 ht
  have ht'' : (1 : ℝ) ≤ s.t := by exact_mod_cast ht'
  have hsq : 1 ≤ Real.sqrt ((s.t + 1 : ℕ) : ℝ) := by
    rw [Real.one_le_sqrt]
    push_cast
    linarith
  have h0 : (fresh : St n q).t = 0 := rfl
  rw [h0, show (((0 + 1 : ℕ) : ℕ) : ℝ) = 1 by norm_num, Real.sqrt_one, div_one]
  have hA : c.stepSize * 100 / (100 + ((s.t + 1 : ℕ) : ℝ)) < c.stepSize * 100 / (100 + 1) := by
    apply div_lt_div_of_pos_left
    · positivity
    · norm_num
    · push_cast; linarith
  calc c.stepSize * 100 / (100 + ((s.t + 1 : ℕ) : ℝ)) * |Sk.Opt.clipped c G j o| / Real.sqrt ((s.t + 1 : ℕ) : ℝ)
      ≤ c.stepSize * 100 / (100 + ((s.t + 1 : ℕ) : ℝ)) * |Sk.Opt.clipped c G j o| := div_le_self (by positivity) hsq
    _ < c.stepSize * 100 / (100 + 1) * |Sk.Opt.clipped c G j o| := mul_lt_mul_of_pos_right hA hpos

/-- States after updates, as the last two theorems need them: the default optimiser after one update with gradient 1. -/
example : ∃ s : St 1 1, s = (updateParams newSGD.cfg fresh (fun _ _ => 0) (fun _ _ => 1)).2 ∧ s.t ≠ 0 ∧ s.prev 0 0 ≠ 0 ∧ 0 < newSGD.cfg.momentum ∧ newSGD.cfg.kind ≠ .adam := by
  refine ⟨_, rfl, ?_, ?_, by norm_num [newSGD], by simp [newSGD]⟩
  · simp [updateParams, getUpdate, Sk.Opt.raw, newSGD, Sk.Opt.init, fresh]
  · simp [updateParams, getUpdate, Sk.Opt.raw, newSGD, Sk.Opt.init, fresh, Sk.Opt.clipped]
    norm_num

end Sk.OptNames
