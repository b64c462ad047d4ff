/-!
# Outcomes of C++ functions

A modelled C++ function either returns, throws (`ITError`, `std::runtime_error`, `Error(...)`),
or executes undefined behaviour (out-of-bounds access and the like).  UB is a distinct outcome.
-/

namespace Verif

/-- Outcome of a modelled C++ call.  `throw`: an exception leaves the call
(`Error(...)` in `/repo/itensor/util/error.h` throws `ITError`).  `ub`: the call performs
undefined behaviour; nothing may be concluded about the program afterwards. -/
inductive Res (α : Type _) where
  | ok (a : α)
  | throw
  | ub
  deriving DecidableEq, Repr

namespace Res

def bind {α β} : Res α → (α → Res β) → Res β
  | ok a, f => f a
  | throw, _ => throw
  | ub, _ => ub

def map {α β} (f : α → β) : Res α → Res β
  | ok a => ok (f a)
  | throw => throw
  | ub => ub

instance : Monad Res where
  pure := ok
  bind := bind

@[simp] theorem bind_ok {α β} (a : α) (f : α → Res β) : bind (ok a) f = f a := rfl
@[simp] theorem bind_throw {α β} (f : α → Res β) : bind throw f = throw := rfl
@[simp] theorem bind_ub {α β} (f : α → Res β) : bind ub f = ub := rfl
@[simp] theorem map_ok {α β} (a : α) (f : α → β) : map f (ok a) = ok (f a) := rfl
@[simp] theorem pure_eq {α} (a : α) : (pure a : Res α) = ok a := rfl
@[simp] theorem bind_eq {α β} (x : Res α) (f : α → Res β) : (x >>= f) = bind x f := rfl

theorem bind_eq_ok {α β} {x : Res α} {f : α → Res β} {b : β} :
    bind x f = ok b ↔ ∃ a, x = ok a ∧ f a = ok b := by
  cases x <;> simp [bind]

/-- Run a fallible step over a list, left to right, stopping at the first failure. -/
def foldM {σ ι} (f : σ → ι → Res σ) : σ → List ι → Res σ
  | s, [] => ok s
  | s, i :: is => (f s i).bind fun s' => foldM f s' is

@[simp] theorem foldM_nil {σ ι} (f : σ → ι → Res σ) (s : σ) : foldM f s [] = ok s := rfl
@[simp] theorem foldM_cons {σ ι} (f : σ → ι → Res σ) (s : σ) (i : ι) (is : List ι) :
    foldM f s (i :: is) = (f s i).bind fun s' => foldM f s' is := rfl

theorem foldM_append {σ ι} (f : σ → ι → Res σ) (s : σ) (xs ys : List ι) :
    foldM f s (xs ++ ys) = (foldM f s xs).bind fun s' => foldM f s' ys := by
  induction xs generalizing s with
  | nil => rfl
  | cons x xs ih => simp only [List.cons_append, foldM_cons]; cases f s x <;> simp [ih]

/-- Invariant rule: if every successful step preserves `P`, so does a successful run. -/
theorem foldM_inv {σ ι} {f : σ → ι → Res σ} {P : σ → Prop}
    (h : ∀ s i s', P s → f s i = ok s' → P s') {s : σ} {is : List ι} {s' : σ}
    (hs : P s) (hr : foldM f s is = ok s') : P s' := by
  induction is generalizing s with
  | nil => simp at hr; exact hr ▸ hs
  | cons i is ih =>
    simp only [foldM_cons, bind_eq_ok] at hr
    obtain ⟨s1, h1, h2⟩ := hr
    exact ih (h s i s1 hs h1) h2

end Res
end Verif
