import Verif.Decomp.SvdC68

/-!
# C68: the theorems
-/

namespace Verif.Svd

open Verif.Index (Index IndexSet)
open Verif.QDense
open Verif.Decomp (Opts)
open Verif.Tensor
open Verif.TagSet (TagSet)
open Verif.QN (IsQN norm)

variable {R K : Type*} [Field R] [LinearOrder R] [CommRing K] [StarRing K] [Algebra R K]

/-- What a decomposition of the matrix `el` (rows `uI`, columns `vI`, flux `F`) into `U`, `D`, `V` is, truncated or not. `Ue`, `De`, `Ve` are the elements which are read
from the three tensors. -/
structure Decomposes (M : Verif.QN.Name → Int) (uI vI : Index) (el : Nat → Nat → K) (F : Verif.QN.Name → Int) (out : Out R K)
    (Ue : Nat → Nat → K) (De : Nat → R) (Ve : Nat → Nat → K) : Prop where
  /-- Reading an element of `U` with indices `(uI,dag(L))`. -/
  readU : ∀ i < uI.dim, ∀ l < out.L.dim, getElt out.s.U [uI, out.L.dag] [i, l] = .ok (Ue i l)
  readV : ∀ j < vI.dim, ∀ l < out.L.dim, getElt out.s.V [vI, out.L'.dag] [j, l] = .ok (Ve j l)
  /-- `D` is diagonal. -/
  readD : ∀ l < out.L.dim, ∀ l' < out.L.dim, out.s.D.elt l l' = .ok (if l = l' then De l else 0)
  dims : out.L'.dim = out.L.dim
  isoU : ∀ l < out.L.dim, ∀ l' < out.L.dim, ∑ i ∈ Finset.range uI.dim, star (Ue i l) * Ue i l' = if l = l' then 1 else 0
  isoV : ∀ l < out.L.dim, ∀ l' < out.L.dim, ∑ j ∈ Finset.range vI.dim, star (Ve j l) * Ve j l' = if l = l' then 1 else 0
  nonneg : ∀ l < out.L.dim, 0 ≤ De l
  /-- The squared distance between the matrix and the product is the squared norm of the matrix minus the squares of the kept values. -/
  error : ∑ i ∈ Finset.range uI.dim, ∑ j ∈ Finset.range vI.dim,
      star (el i j - ∑ l ∈ Finset.range out.L.dim, Ue i l * algebraMap R K (De l) * Ve j l) * (el i j - ∑ l ∈ Finset.range out.L.dim, Ue i l * algebraMap R K (De l) * Ve j l) =
    ∑ i ∈ Finset.range uI.dim, ∑ j ∈ Finset.range vI.dim, star (el i j) * el i j - algebraMap R K (∑ l ∈ Finset.range out.L.dim, De l * De l)
  /-- `U` and `V` have zero flux, `D` has that of the matrix. -/
  fluxU : ∀ o ∈ out.s.U.offsets, ∀ n, norm (M n) (fluxVal [uI, out.L.dag] o.block n) = 0
  fluxV : ∀ o ∈ out.s.V.offsets, ∀ n, norm (M n) (fluxVal [vI, out.L'.dag] o.block n) = 0
  fluxD : ∀ m < out.L.nblock, ∀ n, norm (M n) (fluxVal [out.L, out.L'] [m, m] n) = norm (M n) (F n)

theorem norm_cancel {m a b c d : Int} (hd : d = 1 ∨ d = -1) (h : norm m (c + a * d) = norm m (c + b * d)) : norm m a = norm m b := by
  have h1 : norm m (c + a * d + -c) = norm m (c + b * d + -c) := by
    rw [← Verif.QN.norm_add_norm_left, h, Verif.QN.norm_add_norm_left]
  have h2 : norm m (a * d) = norm m (b * d) := by
    rw [show c + a * d + -c = a * d by ring, show c + b * d + -c = b * d by ring] at h1; exact h1
  rcases hd with rfl | rfl
  · simpa using h2
  · have h3 : norm m (-(a * -1)) = norm m (-(b * -1)) := by
      have e : ∀ x y : Int, norm m x = norm m y → norm m (-x) = norm m (-y) := by
        intro x y hxy
        rw [← Verif.QN.norm_neg_norm, hxy, Verif.QN.norm_neg_norm]
      exact e _ _ h2
    simpa using h3

/-- In a matrix with definite flux whose column sectors have different quantum numbers a row sector occurs in one block. -/
theorem col_unique {M : Verif.QN.Name → Int} {u : List Verif.QN.Name} {J : Index} (hdir : J.dir = 1 ∨ J.dir = -1) (hok : SectorsOK M u [J])
    (hd : (J.qns.map (·.1)).Pairwise fun a b => ∃ n, a.val n ≠ b.val n) {b b' : Nat} (hb : b < J.nblock) (hb' : b' < J.nblock)
    (h : ∀ n, norm (M n) ((J.qns.getD b (Verif.QN.QN.default, 0)).1.val n) = norm (M n) ((J.qns.getD b' (Verif.QN.QN.default, 0)).1.val n)) : b = b' := by
  have hg : ∀ c (hc : c < J.qns.length), J.qns.getD c (Verif.QN.QN.default, 0) = J.qns[c] := by
    intro c hc; rw [List.getD_eq_getElem?_getD, List.getElem?_eq_getElem hc]; rfl
  have hb0 : b < J.qns.length := hb
  have hb0' : b' < J.qns.length := hb'
  rw [hg b hb0, hg b' hb0'] at h
  have h1 : ∀ n, J.qns[b].1.val n = J.qns[b'].1.val n := by
    intro n
    have := h n
    rwa [isQN_val_norm (hok.2 J (by simp) _ (List.getElem_mem hb0)).1, isQN_val_norm (hok.2 J (by simp) _ (List.getElem_mem hb0')).1] at this
  rw [List.pairwise_map, List.pairwise_iff_getElem] at hd
  rcases Nat.lt_trichotomy b b' with hlt | heq | hgt
  · obtain ⟨n, hn⟩ := hd b b' hb0 hb0' hlt; exact absurd (h1 n) hn
  · exact heq
  · obtain ⟨n, hn⟩ := hd b' b hb0' hb0 hgt; exact absurd (h1 n).symm hn

/-- The element of the matrix in row `i` and column `j`. -/
def elA (tr : Bool) (uI vI : Index) (A : QDense K) (i j : Nat) : K :=
  match getElt A (if tr then [vI, uI] else [uI, vI]) (if tr then [j, i] else [i, j]) with
  | .ok x => x
  | _ => 0

theorem elA_gl {tr : Bool} {uI vI : Index} {A : QDense K} (hA : WF (if tr then [vI, uI] else [uI, vI]) A.offsets A.size) {a b x y : Nat}
    (ha : a < uI.nblock) (hb : b < vI.nblock) (hx : x < bsize uI a) (hy : y < bsize vI b) :
    getElt A (if tr then [vI, uI] else [uI, vI]) (if tr then [gl vI b y, gl uI a x] else [gl uI a x, gl vI b y]) =
      .ok (elem A (if tr then [vI, uI] else [uI, vI]) (if tr then [b, a] else [a, b]) (if tr then [y, x] else [x, y])) := by
  cases tr
  · exact getElt2 hA ha hb hx hy
  · exact getElt2 hA hb ha hy hx

theorem kept_sum {α : Type*} [AddCommMonoid α] {ks : List (Kept R K)} {ts : List (Ord2Block K × Fac R K × Nat)}
    (hk : ks = (ts.filter fun t => t.2.2 ≠ 0).map fun t => kept t.1 t.2.1 t.2.2) (f : Kept R K → α) (hf : ∀ t ∈ ts, t.2.2 = 0 → f (kept t.1 t.2.1 t.2.2) = 0) :
    (ks.map f).sum = (ts.map fun t => f (kept t.1 t.2.1 t.2.2)).sum := by
  rw [hk, List.map_map]
  exact filter_sum _ ts (f ∘ fun t => kept t.1 t.2.1 t.2.2) fun t ht hp => hf t ht (by simpa using hp)

theorem svd_main (hs : ∀ x : R, star (algebraMap R K x) = algebraMap R K x) {M : Verif.QN.Name → Int} {u : List Verif.QN.Name} {uI vI : Index}
    (hdu : uI.dir = 1 ∨ uI.dir = -1) (hdv : vI.dir = 1 ∨ vI.dir = -1)
    (hdimu : uI.dim = (szs uI).sum) (hdimv : vI.dim = (szs vI).sum) (hok : SectorsOK M u [uI, vI])
    (hdistu : (uI.qns.map (·.1)).Pairwise fun a b => ∃ n, a.val n ≠ b.val n) (hdistv : (vI.qns.map (·.1)).Pairwise fun a b => ∃ n, a.val n ≠ b.val n)
    (tr : Bool) {A : QDense K} (hA : WF (if tr then [vI, uI] else [uI, vI]) A.offsets A.size) {F : Verif.QN.Name → Int}
    (hflux : ∀ o ∈ A.offsets, ∀ n, norm (M n) (fluxVal (if tr then [vI, uI] else [uI, vI]) o.block n) = norm (M n) (F n))
    {bs : List (Ord2Block K)} (hbs : BlocksOK (if tr then [vI, uI] else [uI, vI]) tr uI vI A bs)
    {svd : Nat → Nat → (Nat → Nat → K) → Fac R K} (hsvd : ∀ B ∈ bs, IsSvd B.nr B.nc B.M (svd B.nr B.nc B.M)) (clip : Bool) {cs : List Nat}
    (hcs : List.Forall₂ (fun (p : Ord2Block K × Fac R K) c => c ≤ p.2.d.length) (bs.map fun B => (B, svd B.nr B.nc B.M)) cs) (hsum : cs.sum ≠ 0)
    (fuel idL idR : Nat) (tL tR : TagSet) (te : R)
    (hf1 : uI.nblock * bs.length < fuel) (hf2 : vI.nblock * bs.length < fuel) (hm1 : ((uI.nblock * bs.length : Nat) : Int) ≤ offMax) (hm2 : ((vI.nblock * bs.length : Nat) : Int) ≤ offMax) :
    ∃ out Ue De Ve, assemble fuel idL idR tL tR uI vI te (keep clip (bs.map fun B => (B, svd B.nr B.nc B.M)) cs) = some (.ok out) ∧
      out.L.id = idL ∧ out.L'.id = idR ∧ out.L.tags = tL ∧ out.L'.tags = tR ∧ out.truncerr = te ∧ out.L.dim = cs.sum ∧
      Decomposes M uI vI (elA tr uI vI A) F out Ue De Ve ∧
      (∀ l < out.L.dim, ∃ t ∈ triples (bs.map fun B => (B, svd B.nr B.nc B.M)) cs, De l ∈ t.2.1.d.take t.2.2) ∧
      ((∀ t ∈ triples (bs.map fun B => (B, svd B.nr B.nc B.M)) cs, ∀ k, t.2.2 ≤ k → k < t.2.1.d.length → t.2.1.d.getD k 0 = 0) →
        ∀ i < uI.dim, ∀ j < vI.dim, elA tr uI vI A i j = ∑ l ∈ Finset.range out.L.dim, Ue i l * algebraMap R K (De l) * Ve j l) := by
  set fs := bs.map fun B => (B, svd B.nr B.nc B.M) with hfs
  set ts := triples fs cs with hts
  have hfacs : ∀ p ∈ fs, IsSvd p.1.nr p.1.nc p.1.M p.2 ∧ p.1 ∈ bs := by
    intro p hp
    obtain ⟨B, hB, rfl⟩ := List.mem_map.1 hp
    exact ⟨hsvd B hB, hB⟩
  have hlen : cs.length = fs.length := hcs.length_eq.symm
  have hkeep : keep clip fs cs = (ts.filter fun t => t.2.2 ≠ 0).map fun t => kept t.1 t.2.1 t.2.2 :=
    keep_eq clip fs cs fun p hp x hx => (hfacs p hp).1.nonneg x hx
  set ks := keep clip fs cs with hks
  have htm : ∀ t ∈ ts, IsSvd t.1.nr t.1.nc t.1.M t.2.1 ∧ t.1 ∈ bs ∧ t.2.2 ≤ t.2.1.d.length := by
    intro t ht
    obtain ⟨h1, h2⟩ := triples_mem hcs ht
    exact ⟨(hfacs _ h1).1, (hfacs _ h1).2, h2⟩
  have htb : ts.map (·.1) = bs := by
    have := triples_fst fs cs hlen
    rw [← hts] at this
    have h2 : ts.map (·.1) = (ts.map fun t => (t.1, t.2.1)).map (·.1) := by rw [List.map_map]; rfl
    rw [h2, this, hfs, List.map_map]
    exact List.map_id _
  have hdist : ts.Pairwise fun t t' => ¬(t.1.i1 = t'.1.i1 ∧ t.1.i2 = t'.1.i2) := by
    have := hbs.dist
    rw [← htb, List.pairwise_map] at this
    exact this
  have hkm : ∀ q ∈ ks, ∃ t ∈ ts, t.2.2 ≠ 0 ∧ q = kept t.1 t.2.1 t.2.2 := by
    intro q hq
    rw [hkeep] at hq
    obtain ⟨t, ht, rfl⟩ := List.mem_map.1 hq
    obtain ⟨h1, h2⟩ := List.mem_filter.1 ht
    exact ⟨t, h1, by simpa using h2, rfl⟩
  have hdl : ∀ t ∈ ts, (kept t.1 t.2.1 t.2.2).d.length = t.2.2 := by
    intro t ht
    simp only [kept, List.length_take]
    have := (htm t ht).2.2
    omega
  have hgd : ∀ t ∈ ts, ∀ k < t.2.2, (kept t.1 t.2.1 t.2.2).d.getD k 0 = t.2.1.d.getD k 0 := by
    intro t _ k hk
    simp only [kept, List.getD_eq_getElem?_getD]
    rw [List.getElem?_take_of_lt hk]
  have hkl : ks.length ≤ bs.length := by
    rw [hkeep, List.length_map, ← htb, List.length_map]
    exact List.length_filter_le _ _
  have hcsum : (ks.map fun k => k.d.length).sum = cs.sum := by
    rw [kept_sum hkeep (fun k => k.d.length) (fun t ht h0 => by rw [hdl t ht, h0]), list_sum_congr ts _ (fun t => t.2.2) fun t ht => hdl t ht, triples_snd fs cs hlen]
  have hne : ks ≠ [] := by
    intro e
    rw [e] at hcsum
    exact hsum hcsum.symm
  have hkr : ∀ q ∈ ks, q.i1 < uI.nblock ∧ q.i2 < vI.nblock ∧ q.d ≠ [] := by
    intro q hq
    obtain ⟨t, ht, h0, rfl⟩ := hkm q hq
    obtain ⟨g1, g2, _, _⟩ := hbs.rng _ (htm t ht).2.1
    refine ⟨g1, g2, fun e => h0 ?_⟩
    rw [← hdl t ht, e]; rfl
  obtain ⟨q0, hq0⟩ := List.exists_mem_of_ne_nil ks hne
  have hu0 : 0 < uI.nblock := by have := (hkr q0 hq0).1; omega
  have hv0 : 0 < vI.nblock := by have := (hkr q0 hq0).2.1; omega
  have hmul : ∀ n : Nat, n * ks.length ≤ n * bs.length := fun n => Nat.mul_le_mul_left n hkl
  obtain ⟨out, o1, o2, o3, o4, o5, o6, hasm⟩ := assemble_spec (R := R) hdu hdv hu0 hv0 hok fuel idL idR tL tR te hne hkr
    (Nat.lt_of_le_of_lt (hmul _) hf1) (Nat.lt_of_le_of_lt (hmul _) hf2) (le_trans (by exact_mod_cast hmul _) hm1) (le_trans (by exact_mod_cast hmul _) hm2)
  have hel := elts_of hasm
  set Ue := at2 out.s.U uI out.L.dag
  set De := out.s.D.data
  set Ve := at2 out.s.V vI out.L'.dag
  have hdimL : out.L.dim = cs.sum := by rw [hasm.dimL, hcsum]
  -- elements of the matrix and of the difference
  have helA : ∀ a b x y, a < uI.nblock → b < vI.nblock → x < bsize uI a → y < bsize vI b →
      elA tr uI vI A (gl uI a x) (gl vI b y) = (ts.map fun t => if t.1.i1 = a ∧ t.1.i2 = b then t.1.M x y else 0).sum := by
    intro a b x y ha hb hx hy
    unfold elA
    rw [elA_gl hA ha hb hx hy, hbs.elt a b x y ha hb hx hy]
    dsimp only
    conv_lhs => rw [← htb, List.map_map]
    rfl
  have hprod : ∀ a b x y, a < uI.nblock → b < vI.nblock → x < bsize uI a → y < bsize vI b →
      ∑ l ∈ Finset.range out.L.dim, Ue (gl uI a x) l * algebraMap R K (De l) * Ve (gl vI b y) l =
        (ts.map fun t => if t.1.i1 = a ∧ t.1.i2 = b then ∑ k ∈ Finset.range t.2.2, t.2.1.U x k * algebraMap R K (t.2.1.d.getD k 0) * star (t.2.1.V y k) else 0).sum := by
    intro a b x y ha hb hx hy
    rw [product_eq hasm hel ha hb hx hy, kept_sum hkeep]
    · refine list_sum_congr _ _ _ fun t ht => ?_
      rw [hdl t ht]
      congr 1
      refine Finset.sum_congr rfl fun k hk => ?_
      rw [hgd t ht k (Finset.mem_range.1 hk)]
      rfl
    · intro t ht h0
      rw [hdl t ht, h0]
      simp
  have hdiff : ∀ a b x y, a < uI.nblock → b < vI.nblock → x < bsize uI a → y < bsize vI b →
      elA tr uI vI A (gl uI a x) (gl vI b y) - ∑ l ∈ Finset.range out.L.dim, Ue (gl uI a x) l * algebraMap R K (De l) * Ve (gl vI b y) l =
        (ts.map fun t => if t.1.i1 = a ∧ t.1.i2 = b then rest t.2.1 t.2.2 x y else 0).sum := by
    intro a b x y ha hb hx hy
    rw [helA a b x y ha hb hx hy, hprod a b x y ha hb hx hy, sub_eq_iff_eq_add, ← List.sum_map_add]
    refine list_sum_congr _ _ _ fun t ht => ?_
    obtain ⟨hF, hB, hc⟩ := htm t ht
    by_cases hab : t.1.i1 = a ∧ t.1.i2 = b
    · simp only [if_pos hab]
      obtain ⟨_, _, g3, g4⟩ := hbs.rng _ hB
      rw [hF.eq x (by rw [g3, hab.1]; exact hx) y (by rw [g4, hab.2]; exact hy), rest, add_comm, Finset.sum_range_add_sum_Ico _ hc]
    · simp [if_neg hab]
  have hsq : ∀ (f : Nat → Nat → K) (G : Ord2Block K × Fac R K × Nat → Nat → Nat → K),
      (∀ a b x y, a < uI.nblock → b < vI.nblock → x < bsize uI a → y < bsize vI b → f (gl uI a x) (gl vI b y) = (ts.map fun t => if t.1.i1 = a ∧ t.1.i2 = b then G t x y else 0).sum) →
      ∑ i ∈ Finset.range uI.dim, ∑ j ∈ Finset.range vI.dim, star (f i j) * f i j =
        (ts.map fun t => ∑ x ∈ Finset.range t.1.nr, ∑ y ∈ Finset.range t.1.nc, star (G t x y) * G t x y).sum := by
    intro f G hf
    have hb := block_sum (i1 := fun t : Ord2Block K × Fac R K × Nat => t.1.i1) (i2 := fun t => t.1.i2) hdist uI.nblock vI.nblock (bsize uI) (bsize vI)
      (fun t ht => ⟨(hbs.rng _ (htm t ht).2.1).1, (hbs.rng _ (htm t ht).2.1).2.1⟩) G (fun z => star z * z) (by simp)
    have e : (ts.map fun t => ∑ x ∈ Finset.range t.1.nr, ∑ y ∈ Finset.range t.1.nc, star (G t x y) * G t x y).sum =
        (ts.map fun t => ∑ x ∈ Finset.range (bsize uI t.1.i1), ∑ y ∈ Finset.range (bsize vI t.1.i2), star (G t x y) * G t x y).sum :=
      list_sum_congr _ _ _ fun t ht => by
        obtain ⟨_, _, g3, g4⟩ := hbs.rng _ (htm t ht).2.1
        rw [g3, g4]
    rw [e, ← hb, hdimu, sum_sizes, szs_length]
    refine Finset.sum_congr rfl fun a ha => ?_
    have ha := Finset.mem_range.1 ha
    conv_rhs => rw [Finset.sum_comm]
    refine Finset.sum_congr rfl fun x hx => ?_
    have hx := Finset.mem_range.1 hx
    rw [hdimv, sum_sizes, szs_length]
    refine Finset.sum_congr rfl fun b hb => Finset.sum_congr rfl fun y hy => ?_
    have hy := Finset.mem_range.1 hy
    rw [← hf a b x y ha (Finset.mem_range.1 hb) hx hy]
    rfl
  have hnormA := hsq (elA tr uI vI A) (fun t => rest t.2.1 0) fun a b x y ha hb hx hy => by
    rw [helA a b x y ha hb hx hy]
    refine list_sum_congr _ _ _ fun t ht => ?_
    obtain ⟨hF, hB, hc⟩ := htm t ht
    by_cases hab : t.1.i1 = a ∧ t.1.i2 = b
    · simp only [if_pos hab]
      obtain ⟨_, _, g3, g4⟩ := hbs.rng _ hB
      rw [hF.eq x (by rw [g3, hab.1]; exact hx) y (by rw [g4, hab.2]; exact hy), rest, Finset.range_eq_Ico]
    · simp only [if_neg hab]
  have hnormR := hsq (fun i j => elA tr uI vI A i j - ∑ l ∈ Finset.range out.L.dim, Ue i l * algebraMap R K (De l) * Ve j l) (fun t => rest t.2.1 t.2.2) hdiff
  -- fluxes
  have hbf : ∀ t ∈ ts, ∀ n, norm (M n) ((uI.qns.getD t.1.i1 (Verif.QN.QN.default, 0)).1.val n * uI.dir + (vI.qns.getD t.1.i2 (Verif.QN.QN.default, 0)).1.val n * vI.dir) = norm (M n) (F n) := by
    intro t ht n
    obtain ⟨o, ho, hb⟩ := hbs.mem _ (htm t ht).2.1
    have := hflux o ho n
    rw [hb] at this
    rw [← this]
    cases tr <;> simp [fluxVal, add_comm]
  have hrow : ∀ t ∈ ts, ∀ t' ∈ ts, t.1.i1 = t'.1.i1 → t.1.i2 = t'.1.i2 := by
    intro t ht t' ht' h1
    refine col_unique hdv ⟨hok.1, fun I hI => hok.2 I (by simp at hI; simp [hI])⟩ hdistv (hbs.rng _ (htm t ht).2.1).2.1 (hbs.rng _ (htm t' ht').2.1).2.1 fun n => ?_
    have a1 := hbf t ht n
    have a2 := hbf t' ht' n
    rw [← h1] at a2
    exact norm_cancel hdv (a1.trans a2.symm)
  have hcol : ∀ t ∈ ts, ∀ t' ∈ ts, t.1.i2 = t'.1.i2 → t.1.i1 = t'.1.i1 := by
    intro t ht t' ht' h1
    refine col_unique hdu ⟨hok.1, fun I hI => hok.2 I (by simp at hI; simp [hI])⟩ hdistu (hbs.rng _ (htm t ht).2.1).1 (hbs.rng _ (htm t' ht').2.1).1 fun n => ?_
    have a1 := hbf t ht n
    have a2 := hbf t' ht' n
    rw [← h1] at a2
    rw [add_comm] at a1 a2
    exact norm_cancel hdu (a1.trans a2.symm)
  have hkd : ks.Pairwise fun q q' => ¬(q.i1 = q'.i1 ∧ q.i2 = q'.i2) := by
    rw [hkeep, List.pairwise_map]
    exact List.Pairwise.filter _ hdist
  have hkd' : ∀ (m m' : Nat) (q q' : Kept R K), ks[m]? = some q → ks[m']? = some q' → q.i1 = q'.i1 → q.i2 = q'.i2 → m = m' := by
    intro m m' q q' hq hq' e1 e2
    obtain ⟨hm, rfl⟩ := List.getElem?_eq_some_iff.1 hq
    obtain ⟨hm', rfl⟩ := List.getElem?_eq_some_iff.1 hq'
    rw [List.pairwise_iff_getElem] at hkd
    rcases Nat.lt_trichotomy m m' with hlt | heq | hgt
    · exact absurd ⟨e1, e2⟩ (hkd m m' hm hm' hlt)
    · exact heq
    · exact absurd ⟨e1.symm, e2.symm⟩ (hkd m' m hm' hm hgt)
  have hdd : algebraMap R K (∑ l ∈ Finset.range out.L.dim, De l * De l) = (ts.map fun t => ∑ k ∈ Finset.range t.2.2, algebraMap R K (t.2.1.d.getD k 0 * t.2.1.d.getD k 0)).sum := by
    rw [diag_sq hasm hel, kept_sum hkeep]
    · rw [map_list_sum, List.map_map]
      refine list_sum_congr _ _ _ fun t ht => ?_
      rw [Function.comp_apply, map_sum, hdl t ht]
      refine Finset.sum_congr rfl fun k hk => ?_
      rw [hgd t ht k (Finset.mem_range.1 hk)]
    · intro t ht h0
      rw [hdl t ht, h0]
      simp
  have hval : ∀ l < out.L.dim, ∃ t ∈ ts, De l ∈ t.2.1.d.take t.2.2 := by
    intro l hl
    have hL : out.L.nblock = ks.length := by rw [← szs_length, hasm.szL]; simp
    obtain ⟨m, k, hm, hk, rfl⟩ := split_value (X := out.L) (i := l) (by rw [hasm.szL, ← hasm.dimL]; exact hl)
    rw [hL] at hm
    obtain ⟨q, hq⟩ : ∃ q, ks[m]? = some q := ⟨ks[m], List.getElem?_eq_getElem hm⟩
    have hsz : bsize out.L m = q.d.length := by
      rw [bsize, hasm.szL, List.getD_eq_getElem?_getD, List.getElem?_map, hq]; rfl
    rw [hsz] at hk
    rw [hel.d m k q hq hk]
    obtain ⟨t, ht, _, rfl⟩ := hkm q (List.mem_of_getElem? hq)
    refine ⟨t, ht, ?_⟩
    rw [List.getD_eq_getElem?_getD, List.getElem?_eq_getElem hk]
    exact List.getElem_mem hk
  refine ⟨out, Ue, De, Ve, o1, o2, o3, o4, o5, o6, hdimL, ⟨?_, ?_, hel.rd, ?_, ?_, ?_, ?_, ?_, hasm.uflux, hasm.vflux, ?_⟩, hval, ?_⟩
  · rw [hdimu]; exact hel.ru
  · rw [hdimv]; exact hel.rv
  · rw [hasm.dimL, hasm.dimR]
  · rw [hdimu]
    refine iso_u hasm hel (fun q hq => (hkr q hq).1) ?_ ?_
    · intro m m' q q' hq hq' e
      refine hkd' m m' q q' hq hq' e ?_
      obtain ⟨t, ht, _, rfl⟩ := hkm q (List.mem_of_getElem? hq)
      obtain ⟨t', ht', _, rfl⟩ := hkm q' (List.mem_of_getElem? hq')
      exact hrow t ht t' ht' e
    · intro q hq k hk k' hk'
      obtain ⟨t, ht, _, rfl⟩ := hkm q hq
      rw [hdl t ht] at hk hk'
      obtain ⟨hF, hB, hc⟩ := htm t ht
      have := hF.uu k (by omega) k' (by omega)
      rwa [(hbs.rng _ hB).2.2.1] at this
  · rw [hdimv]
    refine iso_v hasm hel (fun q hq => (hkr q hq).2.1) ?_ ?_
    · intro m m' q q' hq hq' e
      refine hkd' m m' q q' hq hq' ?_ e
      obtain ⟨t, ht, _, rfl⟩ := hkm q (List.mem_of_getElem? hq)
      obtain ⟨t', ht', _, rfl⟩ := hkm q' (List.mem_of_getElem? hq')
      exact hcol t ht t' ht' e
    · intro q hq k hk k' hk'
      obtain ⟨t, ht, _, rfl⟩ := hkm q hq
      rw [hdl t ht] at hk hk'
      obtain ⟨hF, hB, hc⟩ := htm t ht
      have := vv' hF (k := k) (k' := k') (by omega) (by omega)
      rw [(hbs.rng _ hB).2.2.2] at this
      simpa [kept] using this
  · intro l hl
    obtain ⟨t, ht, hx⟩ := hval l hl
    exact (htm t ht).1.nonneg _ (List.mem_of_mem_take hx)
  · rw [hnormR, hnormA, hdd, eq_sub_iff_add_eq, ← List.sum_map_add]
    refine list_sum_congr _ _ _ fun t ht => ?_
    obtain ⟨hF, hB, hc⟩ := htm t ht
    rw [rest_norm hs hF, rest_norm hs hF, add_comm, Finset.sum_range_add_sum_Ico _ hc, Finset.range_eq_Ico]
  · intro m hm n
    have hL : out.L.nblock = ks.length := by rw [← szs_length, hasm.szL]; simp
    rw [hL] at hm
    obtain ⟨q, hq⟩ : ∃ q, ks[m]? = some q := ⟨ks[m], List.getElem?_eq_getElem hm⟩
    obtain ⟨t, ht, _, rfl⟩ := hkm q (List.mem_of_getElem? hq)
    rw [← hbf t ht n]
    simp only [fluxVal, List.zipWith_cons_cons, List.zipWith_nil_left, List.sum_cons, List.sum_nil, add_zero, hasm.dirL, hasm.dirR, hasm.qL, hasm.qR, List.getD_eq_getElem?_getD, List.getElem?_map, hq]
    rfl
  · intro hz i hi j hj
    rw [hdimu] at hi
    rw [hdimv] at hj
    obtain ⟨a, x, ha, hx, rfl⟩ := split_value hi
    obtain ⟨b, y, hb, hy, rfl⟩ := split_value hj
    have := hdiff a b x y ha hb hx hy
    rw [list_sum_zero] at this
    · exact sub_eq_zero.1 this
    · intro t ht
      have : rest t.2.1 t.2.2 x y = 0 := by
        unfold rest
        refine Finset.sum_eq_zero fun k hk => ?_
        obtain ⟨k1, k2⟩ := Finset.mem_Ico.1 hk
        rw [hz t ht k k1 k2]
        simp
      simp [this]


/-- The hypotheses on the matrix: indices with sectors of positive size and different quantum numbers, as combining indices gives them (C27), storage with the
blocks of one flux `F`, at least one; the moduli of the quantum numbers are `M`; the new index has at most `offMax` places for blocks; `svd` decomposes every block. -/
structure MatrixOK (M : Verif.QN.Name → Int) (F : Verif.QN.Name → Int) (fuel : Nat) (svd : Nat → Nat → (Nat → Nat → K) → Fac R K) (tr : Bool) (uI vI : Index) (A : QDense K) : Prop where
  ne : vI.eq uI = false
  dirU : uI.dir = 1 ∨ uI.dir = -1
  dirV : vI.dir = 1 ∨ vI.dir = -1
  dimU : uI.dim = (szs uI).sum
  dimV : vI.dim = (szs vI).sum
  posU : ∀ q ∈ uI.qns, 0 < q.2
  posV : ∀ q ∈ vI.qns, 0 < q.2
  qns : ∃ u, SectorsOK M u [uI, vI]
  distU : (uI.qns.map (·.1)).Pairwise fun a b => ∃ n, a.val n ≠ b.val n
  distV : (vI.qns.map (·.1)).Pairwise fun a b => ∃ n, a.val n ≠ b.val n
  wf : WF (if tr then [vI, uI] else [uI, vI]) A.offsets A.size
  some : A.offsets ≠ []
  flux : ∀ o ∈ A.offsets, ∀ n, norm (M n) (fluxVal (if tr then [vI, uI] else [uI, vI]) o.block n) = norm (M n) (F n)
  svd : ∀ bs, getBlocks (if tr then vI else uI) (if tr then uI else vI) tr A A.offsets = .ok bs → ∀ B ∈ bs, IsSvd B.nr B.nc B.M (svd B.nr B.nc B.M)
  fuelU : uI.nblock * A.offsets.length < fuel
  fuelV : vI.nblock * A.offsets.length < fuel
  maxU : ((uI.nblock * A.offsets.length : Nat) : Int) ≤ offMax
  maxV : ((vI.nblock * A.offsets.length : Nat) : Int) ≤ offMax

theorem bsize_pos {I : Index} (h : ∀ q ∈ I.qns, 0 < q.2) {b : Nat} (hb : b < I.nblock) : 0 < bsize I b := by
  have hb0 : b < I.qns.length := hb
  have : bsize I b = I.qns[b].2 := by
    unfold bsize szs
    rw [List.getD_eq_getElem?_getD, List.getElem?_map, List.getElem?_eq_getElem hb0]; rfl
  rw [this]
  exact h _ (List.getElem_mem hb0)

theorem dim_pos {I : Index} (hd : I.dim = (szs I).sum) (h : ∀ q ∈ I.qns, 0 < q.2) {b : Nat} (hb : b < I.nblock) : I.dim ≠ 0 := by
  rw [hd]
  intro e
  have hb0 : b < (szs I).length := by rw [szs_length]; exact hb
  have h1 : (szs I)[b] ≤ (szs I).sum := List.le_sum_of_mem (List.getElem_mem hb0)
  have h2 := bsize_pos h hb
  rw [bsize, List.getD_eq_getElem?_getD, List.getElem?_eq_getElem hb0] at h2
  simp only [Option.getD_some] at h2
  omega

/-- What `svdImpl` does with such a matrix before the numbers of values to keep are known. -/
theorem svdQN_run {M F : Verif.QN.Name → Int} {fuel : Nat} {svd : Nat → Nat → (Nat → Nat → K) → Fac R K} {tr : Bool} {uI vI : Index} {A : QDense K}
    (h : MatrixOK M F fuel svd tr uI vI A) (eps : R) (trunc : Option (Opts R)) (idL idR : Nat) (tL tR : TagSet) :
    ∃ bs, getBlocks (if tr then vI else uI) (if tr then uI else vI) tr A A.offsets = .ok bs ∧ bs ≠ [] ∧ bs.length = A.offsets.length ∧ BlocksOK (if tr then [vI, uI] else [uI, vI]) tr uI vI A bs ∧
      (∀ B ∈ bs, IsSvd B.nr B.nc B.M (svd B.nr B.nc B.M)) ∧ (∀ B ∈ bs, (svd B.nr B.nc B.M).d ≠ []) ∧
      ∀ cs te, counts eps trunc ((bs.map fun B => (B, svd B.nr B.nc B.M)).map fun p => p.2.d) = .ok (cs, te) →
        svdQN fuel svd eps trunc idL idR tL tR (if tr then [vI, uI] else [uI, vI]) uI vI A =
          assemble fuel idL idR tL tR uI vI te (keep trunc.isSome (bs.map fun B => (B, svd B.nr B.nc B.M)) cs) := by
  obtain ⟨bs, h1, h2, h3⟩ := getBlocks_ok tr h.wf
  have hne : bs ≠ [] := fun e => h.some (List.eq_nil_of_length_eq_zero (by rw [← h2, e]; rfl))
  have hs := h.svd bs h1
  obtain ⟨B0, hB0⟩ := List.exists_mem_of_ne_nil bs hne
  obtain ⟨r1, r2, _, _⟩ := h3.rng B0 hB0
  refine ⟨bs, h1, hne, h2, h3, hs, ?_, ?_⟩
  · intro B hB e
    obtain ⟨g1, g2, g3, g4⟩ := h3.rng B hB
    have := (hs B hB).len
    rw [e, g3, g4] at this
    have p1 := bsize_pos h.posU g1
    have p2 := bsize_pos h.posV g2
    simp only [List.length_nil] at this
    omega
  · intro cs te hc
    have htr : vI.eq (if tr then vI else uI) = tr := by
      cases tr
      · exact h.ne
      · simp [Index.eq, Verif.TagSet.TagSet.eq]
    have his : (if tr then [vI, uI] else [uI, vI]) = [if tr then vI else uI, if tr then uI else vI] := by cases tr <;> rfl
    rw [his]
    unfold svdQN
    dsimp only
    rw [htr, h1]
    dsimp only
    rw [if_neg (by simpa using hne), if_neg (not_or.2 ⟨dim_pos h.dimU h.posU r1, dim_pos h.dimV h.posV r2⟩)]
    rw [hc]

/-- **C68.** Without truncation `svdImpl` of a matrix with quantum numbers succeeds and returns tensors `U`, `D`, `V` such that `A = U D V`, the columns of `U` and those of
`V` are orthonormal, `D` is diagonal with values which are not negative, `U` and `V` have zero flux and `D` has that of the matrix. -/
theorem C68_exact (hs : ∀ x : R, star (algebraMap R K x) = algebraMap R K x) {M F : Verif.QN.Name → Int} {fuel : Nat} {svd : Nat → Nat → (Nat → Nat → K) → Fac R K} {tr : Bool}
    {uI vI : Index} {A : QDense K} (h : MatrixOK M F fuel svd tr uI vI A) (eps : R) (idL idR : Nat) (tL tR : TagSet) :
    ∃ out Ue De Ve, svdQN fuel svd eps none idL idR tL tR (if tr then [vI, uI] else [uI, vI]) uI vI A = some (.ok out) ∧
      out.L.id = idL ∧ out.L'.id = idR ∧ out.L.tags = tL ∧ out.L'.tags = tR ∧ out.truncerr = 0 ∧
      Decomposes M uI vI (elA tr uI vI A) F out Ue De Ve ∧
      ∀ i < uI.dim, ∀ j < vI.dim, elA tr uI vI A i j = ∑ l ∈ Finset.range out.L.dim, Ue i l * algebraMap R K (De l) * Ve j l := by
  obtain ⟨bs, _, hne, hlen, hbs, hsvd, hd0, hrun⟩ := svdQN_run h eps none idL idR tL tR
  obtain ⟨u, hok⟩ := h.qns
  set fs := bs.map fun B => (B, svd B.nr B.nc B.M) with hfs
  have hcs : List.Forall₂ (fun (p : Ord2Block K × Fac R K) c => c ≤ p.2.d.length) fs ((fs.map fun p => p.2.d).map (·.length)) := by
    rw [List.map_map, List.forall₂_map_right_iff]
    exact List.forall₂_same.2 fun p _ => le_refl _
  have hsum : ((fs.map fun p => p.2.d).map (·.length)).sum ≠ 0 := by
    obtain ⟨B0, hB0⟩ := List.exists_mem_of_ne_nil bs hne
    intro e
    have hm : (svd B0.nr B0.nc B0.M).d.length ∈ (fs.map fun p => p.2.d).map (·.length) := by
      rw [List.map_map, hfs, List.map_map]
      exact List.mem_map.2 ⟨B0, hB0, rfl⟩
    have := List.le_sum_of_mem hm
    have h3 : (svd B0.nr B0.nc B0.M).d.length ≠ 0 := fun e => hd0 B0 hB0 (List.eq_nil_of_length_eq_zero e)
    omega
  obtain ⟨out, Ue, De, Ve, g1, g2, g3, g4, g5, g6, _, g8, _, g10⟩ := svd_main hs h.dirU h.dirV h.dimU h.dimV hok h.distU h.distV tr h.wf h.flux hbs hsvd
    (none : Option (Opts R)).isSome hcs hsum fuel idL idR tL tR (0 : R) (by rw [hlen]; exact h.fuelU) (by rw [hlen]; exact h.fuelV) (by rw [hlen]; exact h.maxU) (by rw [hlen]; exact h.maxV)
  refine ⟨out, Ue, De, Ve, (hrun _ _ rfl).trans g1, g2, g3, g4, g5, g6, g8, g10 ?_⟩
  intro t ht k hk1 hk2
  exfalso
  have hl : t.2.2 = t.2.1.d.length := by
    have : ∀ (l : List (Ord2Block K × Fac R K)) (t), t ∈ triples l ((l.map fun p => p.2.d).map (·.length)) → t.2.2 = t.2.1.d.length := by
      intro l
      induction l with
      | nil => intro t ht; simp [triples] at ht
      | cons p l ih =>
        intro t ht
        obtain ⟨B, G⟩ := p
        simp only [List.map_cons, triples, List.mem_cons] at ht
        rcases ht with rfl | ht
        · rfl
        · exact ih t ht
    exact this fs t ht
  omega

/-- The squares of the singular values of all blocks, in decreasing order (svd.cc:225-237). -/
def spectrum (svd : Nat → Nat → (Nat → Nat → K) → Fac R K) (bs : List (Ord2Block K)) : List R :=
  ((bs.map fun B => (svd B.nr B.nc B.M).d.map fun x => x * x).flatten).mergeSort fun a b => decide (b ≤ a)

/-- **C68 (partial).** With truncation: `svdImpl` returns `U`, `D`, `V` as above where the number of values is that which `truncate` keeps of the spectrum of all blocks,
every kept value lies above the lower bound it returned, and the squared distance between the matrix and `U D V` is the sum of all squares minus that of the kept ones
(field `error`). Missing: the cases in which the selection disagrees with `truncate` (C37) or nothing is kept (C36). -/
theorem C68_truncated_partial [IsStrictOrderedRing R] (hs : ∀ x : R, star (algebraMap R K x) = algebraMap R K x) {M F : Verif.QN.Name → Int} {fuel : Nat} {svd : Nat → Nat → (Nat → Nat → K) → Fac R K}
    {tr : Bool} {uI vI : Index} {A : QDense K} (h : MatrixOK M F fuel svd tr uI vI A) {eps : R} (heps : 0 < eps) (o : Opts R) (hmax : 1 ≤ o.maxdim) (hmin : 1 ≤ o.mindim)
    (hT : ∀ bs t, getBlocks (if tr then vI else uI) (if tr then uI else vI) tr A A.offsets = .ok bs → Verif.Decomp.truncate eps o (spectrum svd bs) = .ok t →
      t.P ≠ [] ∧ t.upper ∉ spectrum svd bs) (idL idR : Nat) (tL tR : TagSet) :
    ∃ bs t out Ue De Ve, getBlocks (if tr then vI else uI) (if tr then uI else vI) tr A A.offsets = .ok bs ∧ Verif.Decomp.truncate eps o (spectrum svd bs) = .ok t ∧
      svdQN fuel svd eps (some o) idL idR tL tR (if tr then [vI, uI] else [uI, vI]) uI vI A = some (.ok out) ∧
      out.L.id = idL ∧ out.L'.id = idR ∧ out.L.tags = tL ∧ out.L'.tags = tR ∧ out.truncerr = t.truncerr ∧ out.L.dim = t.P.length ∧
      Decomposes M uI vI (elA tr uI vI A) F out Ue De Ve ∧ ∀ l < out.L.dim, t.lower < De l * De l := by
  obtain ⟨bs, hget, hne, hlen, hbs, hsvd, hd0, hrun⟩ := svdQN_run h eps (some o) idL idR tL tR
  obtain ⟨u, hok⟩ := h.qns
  set fs := bs.map fun B => (B, svd B.nr B.nc B.M) with hfs
  set sq := (fs.map fun p => p.2.d).map fun d => d.map fun x => x * x with hsq
  have hspec : spectrum svd bs = sq.flatten.mergeSort fun a b => decide (b ≤ a) := by
    rw [spectrum, hsq, hfs, List.map_map, List.map_map]; rfl
  have hmem : ∀ d ∈ sq, ∃ B ∈ bs, d = (svd B.nr B.nc B.M).d.map fun x => x * x := by
    intro d hd
    rw [hsq, hfs, List.map_map, List.map_map] at hd
    obtain ⟨B, hB, rfl⟩ := List.mem_map.1 hd
    exact ⟨B, hB, rfl⟩
  have hperm : sq.flatten.Perm (spectrum svd bs) := by rw [hspec]; exact (List.mergeSort_perm _ _).symm
  have hPd : Verif.Decomp.Desc (spectrum svd bs) := by
    rw [hspec]
    have := List.pairwise_mergeSort (le := fun a b : R => decide (b ≤ a)) (by intro a b c; simp; exact fun h1 h2 => le_trans h2 h1) (by intro a b; simp; exact le_total _ _) sq.flatten
    exact this.imp fun h => by simpa using h
  have hb : ∀ d ∈ sq, Verif.Decomp.Desc d := by
    intro d hd
    obtain ⟨B, hB, rfl⟩ := hmem d hd
    have h1 := (hsvd B hB).desc
    have h2 := (hsvd B hB).nonneg
    refine List.pairwise_map.2 ((List.pairwise_iff_forall_sublist.2 ?_))
    intro a b hab
    have h3 := List.pairwise_iff_forall_sublist.1 h1 hab
    have h4 := h2 b (hab.subset (by simp))
    exact mul_self_le_mul_self h4 h3
  have h0 : ∀ x ∈ spectrum svd bs, 0 ≤ x := by
    intro x hx
    obtain ⟨d, hd, hxd⟩ := List.mem_flatten.1 (hperm.mem_iff.2 hx)
    obtain ⟨B, hB, rfl⟩ := hmem d hd
    obtain ⟨y, _, rfl⟩ := List.mem_map.1 hxd
    exact mul_self_nonneg y
  have hPne : spectrum svd bs ≠ [] := by
    obtain ⟨B0, hB0⟩ := List.exists_mem_of_ne_nil bs hne
    obtain ⟨y, hy⟩ := List.exists_mem_of_ne_nil _ (hd0 B0 hB0)
    intro e
    have : y * y ∈ sq.flatten := by
      refine List.mem_flatten.2 ⟨(svd B0.nr B0.nc B0.M).d.map fun x => x * x, ?_, List.mem_map.2 ⟨y, hy, rfl⟩⟩
      rw [hsq, hfs, List.map_map, List.map_map]
      exact List.mem_map.2 ⟨B0, hB0, rfl⟩
    rw [hperm.mem_iff, e] at this
    simp at this
  obtain ⟨t, ht, hsel⟩ := Verif.Decomp.C37_select_partial heps o hPd hPne h0 hmax hmin hb hperm
  obtain ⟨hP0, hup⟩ := hT bs t hget ht
  obtain ⟨hs1, hs2⟩ := hsel hup
  set cs := Verif.Decomp.select t.P.length t.lower t.upper sq 0 t.ndegen with hcsd
  have hs3 : List.Forall₂ (fun (p : Ord2Block K × Fac R K) c => c ≤ p.2.d.length ∧ ∀ x ∈ p.2.d.take c, t.lower < x * x) fs cs := by
    rw [hsq, List.map_map, List.forall₂_map_left_iff] at hs2
    refine hs2.imp fun p c hpc => ?_
    refine ⟨by simpa using hpc.1, fun x hx => hpc.2.1 (x * x) ?_⟩
    simp only [Function.comp_apply]
    rw [← List.map_take]
    exact List.mem_map.2 ⟨x, hx, rfl⟩
  have hcnt : counts eps (some o) (fs.map fun p => p.2.d) = .ok (cs, t.truncerr) := by
    unfold counts
    dsimp only
    rw [← hsq, ← hspec, ht]
    rfl
  obtain ⟨out, Ue, De, Ve, g1, g2, g3, g4, g5, g6, g7, g8, g9, _⟩ := svd_main hs h.dirU h.dirV h.dimU h.dimV hok h.distU h.distV tr h.wf h.flux hbs hsvd
    (some o).isSome (hs3.imp fun p c hpc => hpc.1) (by rw [hs1]; simpa using hP0) fuel idL idR tL tR t.truncerr
    (by rw [hlen]; exact h.fuelU) (by rw [hlen]; exact h.fuelV) (by rw [hlen]; exact h.maxU) (by rw [hlen]; exact h.maxV)
  refine ⟨bs, t, out, Ue, De, Ve, hget, ht, (hrun _ _ hcnt).trans g1, g2, g3, g4, g5, g6, g7.trans hs1, g8, ?_⟩
  intro l hl
  obtain ⟨q, hq, hx⟩ := g9 l hl
  have : ∀ (l : List (Ord2Block K × Fac R K)) (cs : List Nat), List.Forall₂ (fun (p : Ord2Block K × Fac R K) c => c ≤ p.2.d.length ∧ ∀ x ∈ p.2.d.take c, t.lower < x * x) l cs →
      ∀ q ∈ triples l cs, ∀ x ∈ q.2.1.d.take q.2.2, t.lower < x * x := by
    intro l cs hf
    induction hf with
    | nil => intro q hq; simp [triples] at hq
    | @cons p c l cs hp _ ih =>
      intro q hq
      obtain ⟨B, G⟩ := p
      simp only [triples, List.mem_cons] at hq
      rcases hq with rfl | hq
      · exact hp.2
      · exact ih q hq
  exact this fs cs hs3 q hq _ hx

end Verif.Svd
