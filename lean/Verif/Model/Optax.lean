import Mathlib.Analysis.Real.Sqrt

/-! Model of the optimizers of `netket/optimizer/__init__.py` and of `apply_gradient` of the drivers.

The wrappers call `optax`, whose source is not part of the repository: the transformations below (`sgd`, `trace`, `scale_by_rss`,
`scale_by_rms`, `scale_by_stddev`, `scale_by_adam`) are the documented semantics of optax >= 0.0.2 and belong to the trusted base.
All of them act on every parameter separately, so one real parameter is modelled; floats are real numbers. -/

namespace Verif.Optax

noncomputable section

/-- driver/abstract_variational_driver.py:311-323 (`init`, `update` of an optax `GradientTransformation`): the state is an arbitrary type; `update`
    maps the gradient and the state to the increment of the parameter and the new state. -/
structure Optimizer (St : Type) where
  init : St
  update : ℝ → St → ℝ × St

/-- driver/abstract_variational_driver.py:318-325: `apply_gradient`: the optimizer's increment is added to the parameter. -/
def applyGradient {St : Type} (o : Optimizer St) (s : St) (g p : ℝ) : St × ℝ :=
  ((o.update g s).2, p + (o.update g s).1)

/-- driver/abstract_variational_driver.py:305-314: `n` updates with the gradients `g 0, g 1, ...`. -/
def runOpt {St : Type} (o : Optimizer St) (g : Nat → ℝ) (p : ℝ) : Nat → St × ℝ
  | 0 => (o.init, p)
  | n + 1 => applyGradient o (runOpt o g p n).1 (g n) (runOpt o g p n).2

/-- the parameter after `n` updates (driver/abstract_variational_driver.py:305-325). -/
def param {St : Type} (o : Optimizer St) (g : Nat → ℝ) (p : ℝ) (n : Nat) : ℝ := (runOpt o g p n).2

/-- optimizer/__init__.py:31-58: `Sgd(learning_rate)` is `optax.sgd(learning_rate)`. -/
def sgd (lr : ℝ) : Optimizer Unit where
  init := ()
  update := fun g _ => (-lr * g, ())

/-- optimizer/__init__.py:61-88: `Momentum(learning_rate, beta, nesterov)` is `optax.sgd(learning_rate, momentum=beta,
    nesterov=nesterov)`: the trace is `t' = g + beta t`; with nesterov the increment uses `g + beta t'`. -/
def momentum (lr beta : ℝ) (nesterov : Bool) : Optimizer ℝ where
  init := 0
  update := fun g t => (-lr * (if nesterov then g + beta * (g + beta * t) else g + beta * t), g + beta * t)

/-- optimizer/__init__.py:91-129: `AdaGrad(learning_rate, epscut, initial_accumulator_value)` is `optax.adagrad`. -/
def adagrad (lr eps init : ℝ) : Optimizer ℝ where
  init := init
  update := fun g a => (-lr * (g * if 0 < a + g ^ 2 then 1 / Real.sqrt (a + g ^ 2 + eps) else 0), a + g ^ 2)

/-- optimizer/__init__.py:132-144: `Adam(learning_rate, b1, b2, eps)` is `optax.adam`; the state is the number of updates and
    the two moments. -/
def adam (lr b1 b2 eps : ℝ) : Optimizer (Nat × ℝ × ℝ) where
  init := (0, 0, 0)
  update := fun g s =>
    (-lr * (((1 - b1) * g + b1 * s.2.1) / (1 - b1 ^ (s.1 + 1))
        / (Real.sqrt (((1 - b2) * g ^ 2 + b2 * s.2.2) / (1 - b2 ^ (s.1 + 1))) + eps)),
      (s.1 + 1, (1 - b1) * g + b1 * s.2.1, (1 - b2) * g ^ 2 + b2 * s.2.2))

/-- optimizer/__init__.py:147-184: `RmsProp(learning_rate, beta, epscut, centered)` is `optax.rmsprop(learning_rate, decay=beta,
    eps=epscut, centered=centered)`; the state is the moving averages of the gradient and of its square. -/
def rmsprop (lr beta eps : ℝ) (centered : Bool) : Optimizer (ℝ × ℝ) where
  init := (0, 0)
  update := fun g s =>
    (-lr * (g * (1 / Real.sqrt ((1 - beta) * g ^ 2 + beta * s.2
        - (if centered then ((1 - beta) * g + beta * s.1) ^ 2 else 0) + eps))),
      ((1 - beta) * g + beta * s.1, (1 - beta) * g ^ 2 + beta * s.2))

end

end Verif.Optax
