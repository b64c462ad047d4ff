import Verif.MPS.Trace
import Verif.Net.DirectSum

/-!
# `factor` and `polar`

Source: `/repo/itensor/decomp.cc` (`factor`, `polar`, `absSqrt`). Tensors without quantum numbers. Both start with `svd`, whose result `A*D*B` is an argument
here: what `svd` returns is the subject of C26 (indices combined), C34–C36 (truncation), C68 and C93. The option `AddTags` of `polar` is left out (no tags are added).
-/

namespace Verif.Factor

open Verif.Tensor Verif.Index Verif.Index.IndexSet Verif.Net

variable {K : Type*} [CommRing K] [DecidableEq K]

/-- `apply(f)` for diagonal storage, `f` keeping the type of the elements. diag.h:157-181 -/
def applyDG (f : K → K) (d : DG K) : DG K := { d with val := f d.val, store := d.store.map f }

/-- `dag` without quantum numbers: elements conjugated. itensor.cc:243-256 -/
def dagIT (conj : K →+* K) : IT K → IT K
  | .dense t => .dense ⟨t.is, t.size, fun a => conj (t.mem a)⟩
  | .diag d => .diag ⟨d.is, d.store.map conj, conj d.val, d.length⟩

/-- `prime(n,is)`. itensor.h:262-269, itensor.cc:595-610 -/
def primeIT (n : Int) (m : IndexSet) : IT K → IT K
  | .dense t => .dense { t with is := prime n t.is (.inds m) }
  | .diag d => .diag { d with is := prime n d.is (.inds m) }

/-- `factor(T,A,B,args)` after `svd(T,A,D,B,...)`; `f` is `absSqrt`. decomp.cc:535-555 -/
def factor (fuel : Nat) (junk fresh : Int → K) (f : K → K) (A : DS K) (D : DG K) (B : DS K) : Run (IT K × IT K) :=
  match MPS.findIndex (commonInds A.is D.is), MPS.findIndex (commonInds B.is D.is) with
  | .ok dl, .ok dr =>
    Run.bind ((IT.dense A).mulEq fuel junk fresh (.diag (applyDG f D))) fun A =>
      Run.bind ((IT.dense B).mulEq fuel junk fresh (.diag (applyDG f D))) fun B =>
        Run.bind (A.mulEq fuel junk fresh (deltaIT dl dr)) fun A => some (.ok (A, B))
  | _, _ => some .throw

/-- `polar(T,Uis,args)` after `svd(T,Uis)`; `p` is the option `Prime`. decomp.cc:268-304 -/
def polar (fuel : Nat) (junk fresh : Int → K) (conj : K →+* K) (p : Int) (U : DS K) (S : DG K) (V : DS K) : Run (IT K × IT K) :=
  match MPS.findIndex (commonInds S.is U.is), MPS.findIndex (commonInds S.is V.is) with
  | .ok u, .ok v =>
    Run.bind ((primeIT 1 (uniqueInds V.is [v]) (.dense V)).mulEq fuel junk fresh (deltaIT v u)) fun Vp =>
      Run.bind ((IT.dense U).mulEq fuel junk fresh Vp) fun Q =>
        Run.bind ((dagIT conj Vp).mulEq fuel junk fresh (.diag S)) fun R =>
          Run.bind (R.mulEq fuel junk fresh (.dense V)) fun P =>
            if p - 1 = -1 then some .throw
            else some (.ok (primeIT (p - 1) (commonInds Q.is P.is) Q, primeIT (p - 1) (commonInds Q.is P.is) P))
  | _, _ => some .throw

end Verif.Factor
