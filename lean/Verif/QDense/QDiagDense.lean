import Verif.Diag.Ops
import Verif.QDense.RemoveQNs

/-!
# Converting diagonal tensors with quantum numbers

Model of `toDense(ITensor)` for `QDiag` storage (`/repo/itensor/itensor.cc:988-993`, `/repo/itensor/itdata/qdiag.cc:590-643`), with `getBlock(QDiag)` and
`diagBlockBounds` of `/repo/itensor/itdata/qdiag.h`. Property C67.

Simplifications. As in `QDense/Model.lean` and `Diag/Ops.lean`. `aref[i]` is not checked in release builds: a write is undefined when it leaves the storage.
-/

namespace Verif.QDense

open Verif.Index (Index IndexSet)
open Verif.Tensor
open Verif.Tensor.Range
open Verif.DiagOps (Sto)

section model
variable {K : Type*} [CommRing K]

/-- `doTask(CalcDiv,QDiag)` (qdiag.cc:84-113): the flux of the block of first sectors; the check of all blocks is only made in debug builds. -/
def qdiagDiv (is : IndexSet) : Res Verif.QN.QN :=
  blockQN is (List.replicate is.length 0) Verif.QN.QN.default

/-- The loop of `diagBlockBounds` (qdiag.h:292-301), without the array of starts. -/
def boundsLoop : IndexSet → Block → Nat × Option Nat → Res (Nat × Option Nat)
  | [], _, a => .ok a
  | _ :: _, [], _ => .ub
  | I :: is, b :: bs, a =>
    (sectorStart I b).bind fun st => (blocksize0 I b).bind fun n =>
      boundsLoop is bs (max a.1 st, some (match a.2 with | none => st + n | some e => min e (st + n)))

/-- `getBlock(QDiag)` (qdiag.h:311-340) with stored elements, for a block of a tensor with indices. -/
def qdiagBlock (s : Sto K) (is : IndexSet) (b : Block) : Res (List (Cx K)) :=
  (boundsLoop is b (0, none)).bind fun a =>
    match a.2 with
    | none => .ub
    | some e => if a.1 ≥ e then .ok [] else if e ≤ s.store.length then .ok ((s.store.drop a.1).take (e - a.1)) else .ub

/-- The loops `aref[i*tot_stride] = …` (qdiag.cc:624-638) from index `i` on. -/
def tdWrite (size off tot : Nat) : List (Cx K) → Nat → (Int → Cx K) → Res (Int → Cx K)
  | [], _, m => .ok m
  | x :: xs, i, m =>
    if off + i * tot < size then tdWrite size off tot xs (i + 1) (Function.update m ((off + i * tot : Nat) : Int) x) else .ub

/-- Body of the loop over blocks (qdiag.cc:600-642). -/
def tdStep (is : IndexSet) (s : Sto K) (size : Nat) (m : Int → Cx K) (io : BlOf) : Res (Int → Cx K) :=
  if io.block.tail.any (· != io.block.headD 0) then .ok m
  else
    (blockExtents is io.block).bind fun ext =>
    let tot := ((Range.init ext).map (·.str)).sum
    (if s.allSame then .ok (List.replicate (ext.headD 0) s.val) else qdiagBlock s is io.block).bind fun xs =>
      tdWrite size io.offset tot xs 0 m

/-- `doTask(ToDense,QDiag)`. -/
def qdiagToDense (fuel : Nat) (is : IndexSet) (s : Sto K) : Run (QDense (Cx K)) :=
  match qdiagDiv is with
  | .throw => some .throw
  | .ub => some .ub
  | .ok div => Run.bind (ofDiv (K := Cx K) fuel is div) fun nd =>
      some ((Res.foldM (tdStep is s nd.size) nd.data nd.offsets).map fun m => { nd with data := m })

end model

section
variable {K : Type*} [CommRing K]

theorem rank_const (ds : List Nat) (J : Nat) : rank ds (List.replicate ds.length J) = J * ((Range.init ds).map (·.str)).sum := by
  rw [← addr_init (by simp)]
  have h : ∀ (R : Range) (n : Nat), n = R.length → addr R (List.replicate n J) = J * (R.map (·.str)).sum := by
    intro R
    induction R with
    | nil => intro n hn; subst hn; simp
    | cons r R ih =>
      intro n hn
      subst hn
      simp only [List.length_cons, List.replicate_succ, addr_cons, ih _ rfl, List.map_cons, List.sum_cons]
      ring
  refine h _ _ ?_
  have := congrArg List.length (extents_init ds)
  simpa [Range.extents] using this.symm

theorem tdWrite_spec {size off : Nat} {ds : List Nat} (hsz : off + ds.prod ≤ size) (z : Nat) (hz : ∀ d ∈ ds, z ≤ d) (hne : ds ≠ []) (f : Nat → Cx K) :
    ∀ (xs : List (Cx K)) (i : Nat) (m : Int → Cx K), i + xs.length = z → (∀ k (h : k < xs.length), xs[k] = f (i + k)) →
      ∃ m', tdWrite size off ((Range.init ds).map (·.str)).sum xs i m = .ok m' ∧
        (∀ a : Int, (∀ k, i ≤ k → k < z → a ≠ ((off + rank ds (List.replicate ds.length k) : Nat) : Int)) → m' a = m a) ∧
        ∀ k, i ≤ k → k < z → m' ((off + rank ds (List.replicate ds.length k) : Nat) : Int) = f k
  | [], i, m, hi, _ => ⟨m, rfl, fun _ _ => rfl, fun k h1 h2 => by simp at hi; omega⟩
  | x :: xs, i, m, hi, hx => by
    have hiz : i < z := by simp at hi; omega
    have hv : ∀ k, k < z → Valid ds (List.replicate ds.length k) := fun k hk => by
      rw [valid_iff]
      refine ⟨by simp, fun n x d h1 h2 => ?_⟩
      rw [List.getElem?_replicate] at h1
      split at h1
      · cases h1
        exact lt_of_lt_of_le hk (hz d (List.mem_of_getElem? h2))
      · cases h1
    have hlt := rank_lt (hv i hiz)
    obtain ⟨m', e1, e2, e3⟩ := tdWrite_spec hsz z hz hne f xs (i + 1)
      (Function.update m ((off + rank ds (List.replicate ds.length i) : Nat) : Int) x) (by simp at hi; omega)
      (fun k h => by have := hx (k + 1) (by simpa using h); simpa [Nat.add_assoc, Nat.add_comm 1 k] using this)
    refine ⟨m', ?_, ?_, ?_⟩
    · rw [tdWrite, ← rank_const, if_pos (by omega)]
      exact e1
    · intro a ha
      rw [e2 a fun k h1 h2 => ha k (by omega) h2, Function.update_of_ne (ha i le_rfl hiz)]
    · intro k h1 h2
      rcases Nat.eq_or_lt_of_le h1 with rfl | h1
      · rw [e2, Function.update_self]
        · exact hx 0 (by simp)
        · intro k' h3 h4 he
          have he' : rank ds (List.replicate ds.length i) = rank ds (List.replicate ds.length k') := by
            have : off + rank ds (List.replicate ds.length i) = off + rank ds (List.replicate ds.length k') := by exact_mod_cast he
            omega
          have := congrArg (unrank ds) he'
          rw [unrank_rank (hv _ hiz), unrank_rank (hv _ h4)] at this
          cases ds with
          | nil => exact hne rfl
          | cons d ds =>
            simp only [List.length_cons, List.replicate_succ, List.cons.injEq] at this
            omega
      · exact e3 k h1 h2

/-- The value on the diagonal or zero. -/
def tv (s : Sto K) (ind : List Nat) : Cx K := if ind.any (· != ind.headD 0) then 0 else s.at (ind.headD 0)

theorem any_false {l : List Nat} (h : l.any (· != l.headD 0) = false) : l = List.replicate l.length (l.headD 0) := by
  rw [List.eq_replicate_iff]
  refine ⟨rfl, fun x hx => ?_⟩
  have := List.any_eq_false.1 h x hx
  simpa using this

theorem tail_any {l : List Nat} : l.tail.any (· != l.headD 0) = l.any (· != l.headD 0) := by
  cases l <;> simp

theorem glue_rep {zs : List Nat} {is : IndexSet} (hz : ∀ I ∈ is, szs I = zs) (n i : Nat) :
    glue is (List.replicate is.length n) (List.replicate is.length i) = List.replicate is.length ((zs.take n).sum + i) := by
  induction is with
  | nil => rfl
  | cons I is ih =>
    simp only [List.length_cons, List.replicate_succ, glue, gl, hz I (by simp)]
    rw [ih fun J hJ => hz J (by simp [hJ])]

theorem bext_rep {zs : List Nat} {is : IndexSet} (hz : ∀ I ∈ is, szs I = zs) (n : Nat) :
    bext is (List.replicate is.length n) = List.replicate is.length (zs.getD n 0) := by
  induction is with
  | nil => rfl
  | cons I is ih =>
    simp only [List.length_cons, List.replicate_succ, bext, List.zipWith_cons_cons, bsize, hz I (by simp)]
    congr 1
    exact ih fun J hJ => hz J (by simp [hJ])

theorem valid_rep {zs : List Nat} {is : IndexSet} (hz : ∀ I ∈ is, szs I = zs) {n : Nat} (hn : n < zs.length) :
    Valid (nb is) (List.replicate is.length n) := by
  induction is with
  | nil => exact .nil
  | cons I is ih =>
    refine .cons ?_ (ih fun J hJ => hz J (by simp [hJ]))
    change n < I.nblock
    rw [← szs_length, hz I (by simp)]
    exact hn

/-- A position with equal values lies in a block with equal sectors, at equal places. -/
theorem glue_const {zs : List Nat} {is : IndexSet} (hz : ∀ I ∈ is, szs I = zs) {b : Block} {u : List Nat} (hb : Valid (nb is) b)
    (hu : Valid (bext is b) u) {J : Nat} (hJ : ∀ x ∈ glue is b u, x = J) :
    ∀ n i, n < zs.length → i < zs.getD n 0 → J = (zs.take n).sum + i → b = List.replicate is.length n ∧ u = List.replicate is.length i := by
  intro n i hn hi hJe
  have hv := valid_rep hz hn
  have hvu : Valid (bext is (List.replicate is.length n)) (List.replicate is.length i) := by
    rw [bext_rep hz, valid_iff]
    refine ⟨by simp, fun k x d h1 h2 => ?_⟩
    rw [List.getElem?_replicate] at h1 h2
    split at h1
    · rename_i h
      rw [if_pos h] at h2
      cases h1; cases h2
      exact hi
    · cases h1
  refine glue_inj hb hu hv hvu ?_
  rw [glue_rep hz, List.eq_replicate_iff]
  refine ⟨?_, fun x hx => (hJ x hx).trans hJe⟩
  rw [valid_length (glue_valid hb hu)]
  simp [dims]

theorem boundsLoop_rep {zs : List Nat} {n : Nat} (hn : n < zs.length) :
    ∀ (is : IndexSet), (∀ I ∈ is, szs I = zs) → ∀ e : Option Nat, (e = none → is ≠ []) → (∀ x, e = some x → x = (zs.take n).sum + zs.getD n 0) →
      ∀ a, a ≤ (zs.take n).sum → (is = [] → a = (zs.take n).sum) →
      boundsLoop is (List.replicate is.length n) (a, e) = .ok ((zs.take n).sum, some ((zs.take n).sum + zs.getD n 0))
  | [], _, e, he, hx, a, _, ha => by
    cases e with
    | none => exact absurd rfl (he rfl)
    | some x => rw [ha rfl, hx x rfl]; rfl
  | I :: is, hz, e, he, hx, a, ha, _ => by
    have hI := hz I (by simp)
    have hnI : n < I.nblock := by rw [← szs_length, hI]; exact hn
    simp only [List.length_cons, List.replicate_succ, boundsLoop, sectorStart_ok (Nat.le_of_lt hnI), Res.bind_ok, blocksize0_ok hnI]
    have hbs : bsize I n = zs.getD n 0 := by rw [bsize, hI]
    rw [hI, hbs]
    refine boundsLoop_rep hn is (fun J hJ => hz J (by simp [hJ])) _ (by simp) ?_ _ (by omega) (by intro _; omega)
    intro x h
    cases e with
    | none => simpa using h.symm
    | some y =>
      have := hx y rfl
      simp only [Option.some.injEq] at h
      omega

theorem tdStep_spec {zs : List Nat} {is : IndexSet} (hne : is ≠ []) (hz : ∀ I ∈ is, szs I = zs) {s : Sto K} (hs : s.OK) (hlen : s.length = zs.sum)
    {offs : List BlOf} {size : Nat} (hd : WF is offs size) {io : BlOf} (hio : io ∈ offs) (m : Int → Cx K)
    (h0 : ∀ u, Valid (bext is io.block) u → m ((io.offset + rank (bext is io.block) u : Nat) : Int) = 0) :
    ∃ m', tdStep is s size m io = .ok m' ∧
      (∀ u, Valid (bext is io.block) u → m' ((io.offset + rank (bext is io.block) u : Nat) : Int) = tv s (glue is io.block u)) ∧
      ∀ o ∈ offs, o ≠ io → ∀ u, Valid (bext is o.block) u →
        m' ((o.offset + rank (bext is o.block) u : Nat) : Int) = m ((o.offset + rank (bext is o.block) u : Nat) : Int) := by
  have hb := hd.valid io hio
  have hbl : io.block.length = is.length := by rw [valid_length hb]; simp [nb]
  unfold tdStep
  rw [tail_any]
  by_cases hc : io.block.any (· != io.block.headD 0) = true
  · rw [if_pos hc]
    refine ⟨m, rfl, fun u hu => ?_, fun _ _ _ _ _ => rfl⟩
    rw [h0 u hu]
    unfold tv
    split
    · rfl
    · next h =>
      exfalso
      rw [Bool.not_eq_true] at h
      have hg := glue_valid hb hu
      have hgl : (glue is io.block u).length = is.length := by rw [valid_length hg]; simp [dims]
      have hhead : (glue is io.block u).headD 0 < zs.sum := by
        cases is with
        | nil => exact absurd rfl hne
        | cons I is =>
          rw [show dims (I :: is) = (szs I).sum :: dims is from rfl] at hg
          match hgx : glue (I :: is) io.block u, hg with
          | _ :: _, .cons h1 _ =>
            rw [hz I (by simp)] at h1
            exact h1
      obtain ⟨n, i, h1, h2, h3⟩ := exists_gl zs _ hhead
      have := (glue_const hz hb hu (J := (glue is io.block u).headD 0) (fun x hx => by
        have := List.any_eq_false.1 h x hx
        simpa using this) n i h1 h2 h3).1
      rw [this] at hc
      cases is with
      | nil => exact absurd rfl hne
      | cons I is => simp [List.replicate_succ] at hc
  · rw [if_neg hc, blockExtents_ok hb, Res.bind_ok]
    rw [Bool.not_eq_true] at hc
    have hrep := any_false hc
    rw [hbl] at hrep
    obtain ⟨off, hoff⟩ : ∃ off, io = ⟨List.replicate is.length (io.block.headD 0), off⟩ := ⟨io.offset, by
      conv_lhs => rw [show io = ⟨io.block, io.offset⟩ from rfl]
      rw [← hrep]⟩
    generalize io.block.headD 0 = n at hoff
    subst hoff
    have hn : n < zs.length := by
      cases is with
      | nil => exact absurd rfl hne
      | cons I is =>
        cases hb with
        | cons h1 _ =>
          change n < I.nblock at h1
          rw [← szs_length, hz I (by simp)] at h1
          exact h1
    have hbe := bext_rep hz n
    have hst : (zs.take n).sum + zs.getD n 0 ≤ zs.sum := by
      have : (zs.take (n + 1)).sum ≤ zs.sum := by
        conv_rhs => rw [← List.take_append_drop (n + 1) zs, List.sum_append]
        omega
      rw [List.take_add_one, List.sum_append, List.getElem?_eq_getElem hn] at this
      simpa [List.getD_eq_getElem?_getD, List.getElem?_eq_getElem hn] using this
    have hvals : ∃ xs : List (Cx K), (if s.allSame then .ok (List.replicate ((bext is (List.replicate is.length n)).headD 0) s.val) else
        qdiagBlock s is (List.replicate is.length n)) = .ok xs ∧ xs.length = zs.getD n 0 ∧
        ∀ k (h : k < xs.length), xs[k] = s.at ((zs.take n).sum + k) := by
      cases ha : s.allSame with
      | true =>
        refine ⟨_, if_pos rfl, ?_, fun k h => by simp [Sto.at, ha]⟩
        rw [hbe]
        cases is with
        | nil => exact absurd rfl hne
        | cons I is => simp [List.replicate_succ]
      | false =>
        have hl := hs.ne ha
        simp only [Bool.false_eq_true, if_false, qdiagBlock, boundsLoop_rep hn is hz none (fun _ => hne) (by simp) 0 (by omega) (fun h => absurd h hne), Res.bind_ok]
        split
        · next h => exact ⟨[], rfl, by rw [List.length_nil]; omega, by simp⟩
        · rw [if_pos (by omega)]
          refine ⟨_, rfl, by rw [List.length_take, List.length_drop]; omega, fun k h => ?_⟩
          simp only [List.length_take, List.length_drop] at h
          have : (zs.take n).sum + k < s.store.length := by omega
          simp [Sto.at, ha, List.getElem?_eq_getElem this]
    obtain ⟨xs, x1, x2, x3⟩ := hvals
    simp only
    rw [x1, Res.bind_ok]
    have hbds := (hd.tile.bounds _ hio).2
    obtain ⟨m', e1, e2, e3⟩ := tdWrite_spec (size := size) (off := off) (ds := bext is (List.replicate is.length n)) hbds (zs.getD n 0)
      (by rw [hbe]; intro d hd; rw [(List.mem_replicate.1 hd).2]) (by
        rw [hbe]
        cases is with
        | nil => exact absurd rfl hne
        | cons I is => simp [List.replicate_succ]) (fun k => s.at ((zs.take n).sum + k)) xs 0 m (by omega) (fun k h => by rw [x3 k h, Nat.zero_add])
    have hbel : (bext is (List.replicate is.length n)).length = is.length := by rw [hbe]; simp
    have hvc : ∀ k, k < zs.getD n 0 → Valid (bext is (List.replicate is.length n)) (List.replicate is.length k) := fun k hk => by
      rw [hbe, valid_iff]
      refine ⟨by simp, fun j x d h1 h2 => ?_⟩
      rw [List.getElem?_replicate] at h1 h2
      split at h1
      · rename_i h
        rw [if_pos h] at h2
        cases h1; cases h2
        exact hk
      · cases h1
    refine ⟨m', e1, fun u hu => ?_, fun o ho hone u hu => ?_⟩
    · by_cases hk : ∃ k < zs.getD n 0, u = List.replicate is.length k
      · obtain ⟨k, hk, rfl⟩ := hk
        have := e3 k (Nat.zero_le _) hk
        rw [hbel] at this
        rw [this, glue_rep hz]
        unfold tv
        rw [if_neg]
        · cases is with
          | nil => exact absurd rfl hne
          | cons I is => simp [List.replicate_succ]
        · cases is with
          | nil => exact absurd rfl hne
          | cons I is => simp [List.replicate_succ]
      · rw [e2]
        · rw [h0 u hu]
          unfold tv
          split
          · rfl
          · next h =>
            exfalso
            rw [Bool.not_eq_true] at h
            have hg := glue_valid hb hu
            have hhead : (glue is (List.replicate is.length n) u).headD 0 < zs.sum := by
              cases is with
              | nil => exact absurd rfl hne
              | cons I is =>
                rw [show dims (I :: is) = (szs I).sum :: dims is from rfl] at hg
                match hgx : glue (I :: is) (List.replicate (I :: is).length n) u, hg with
                | _ :: _, .cons h1 _ =>
                  rw [hz I (by simp)] at h1
                  exact h1
            obtain ⟨n', i, h1, h2, h3⟩ := exists_gl zs _ hhead
            obtain ⟨g1, g2⟩ := glue_const hz hb hu (J := (glue is (List.replicate is.length n) u).headD 0) (fun x hx => by
              have := List.any_eq_false.1 h x hx
              simpa using this) n' i h1 h2 h3
            have : n = n' := by
              cases is with
              | nil => exact absurd rfl hne
              | cons I is => exact (List.cons.inj g1).1
            subst this
            exact hk ⟨i, h2, g2⟩
        · intro k _ h2 he
          rw [hbel] at he
          have he' : rank (bext is (List.replicate is.length n)) u = rank (bext is (List.replicate is.length n)) (List.replicate is.length k) := by
            have : off + rank (bext is (List.replicate is.length n)) u = off + rank (bext is (List.replicate is.length n)) (List.replicate is.length k) := by
              exact_mod_cast he
            omega
          have := congrArg (unrank (bext is (List.replicate is.length n))) he'
          rw [unrank_rank hu, unrank_rank (hvc k h2)] at this
          exact hk ⟨k, h2, this⟩
    · refine e2 _ fun k _ h2 he => ?_
      rw [hbel] at he
      have r1 := rank_lt hu
      have r2 := rank_lt (hvc k h2)
      have := hd.disjoint ho hio hone
      unfold bdim at this
      have he' : o.offset + rank (bext is o.block) u = off + rank (bext is (List.replicate is.length n)) (List.replicate is.length k) := by exact_mod_cast he
      dsimp only at this
      omega

theorem tdFold_spec {zs : List Nat} {is : IndexSet} (hne : is ≠ []) (hz : ∀ I ∈ is, szs I = zs) {s : Sto K} (hs : s.OK) (hlen : s.length = zs.sum)
    {offs : List BlOf} {size : Nat} (hd : WF is offs size) :
    ∀ (l : List BlOf) (m : Int → Cx K), (∀ o ∈ l, o ∈ offs) → l.Nodup →
      (∀ o ∈ l, ∀ u, Valid (bext is o.block) u → m ((o.offset + rank (bext is o.block) u : Nat) : Int) = 0) →
      ∃ m', Res.foldM (tdStep is s size) m l = .ok m' ∧
        (∀ o ∈ l, ∀ u, Valid (bext is o.block) u → m' ((o.offset + rank (bext is o.block) u : Nat) : Int) = tv s (glue is o.block u)) ∧
        ∀ o ∈ offs, o ∉ l → ∀ u, Valid (bext is o.block) u →
          m' ((o.offset + rank (bext is o.block) u : Nat) : Int) = m ((o.offset + rank (bext is o.block) u : Nat) : Int)
  | [], m, _, _, _ => ⟨m, rfl, by simp, fun _ _ _ _ _ => rfl⟩
  | o :: l, m, hl, hnd, h0 => by
    rw [List.nodup_cons] at hnd
    obtain ⟨m1, e1, e2, e3⟩ := tdStep_spec hne hz hs hlen hd (hl o (by simp)) m (h0 o (by simp))
    obtain ⟨m2, f1, f2, f3⟩ := tdFold_spec hne hz hs hlen hd l m1 (fun x hx => hl x (by simp [hx])) hnd.2 (fun x hx u hu => by
      rw [e3 x (hl x (by simp [hx])) (fun e => hnd.1 (e ▸ hx)) u hu]
      exact h0 x (by simp [hx]) u hu)
    refine ⟨m2, by rw [Res.foldM_cons, e1]; exact f1, fun x hx u hu => ?_, fun x hx hxl u hu => ?_⟩
    · rcases List.mem_cons.1 hx with rfl | hx
      · rw [f3 _ (hl _ (by simp)) hnd.1 u hu, e2 u hu]
      · exact f2 x hx u hu
    · rw [List.mem_cons, not_or] at hxl
      rw [f3 x hx hxl.2 u hu, e3 x hx hxl.1 u hu]

/-- **C67.** `toDense` of a diagonal tensor whose indices have the same sector sizes, and whose diagonal blocks have the same flux (as the
debug check of `CalcDiv` demands), gives a block-sparse tensor with the same element at every position. Partial: with different sector sizes see
`C67_sectors_counterexample`. -/
theorem C67_toDense_partial {M : Verif.QN.Name → Int} {names : List Verif.QN.Name} {zs : List Nat} {is : IndexSet} (hne : is ≠ []) (hsec : zs ≠ [])
    (hz : ∀ I ∈ is, I.qns.map (·.2) = zs) (hok : SectorsOK M names is)
    (hflux : ∀ n < zs.length, ∀ x, Verif.QN.norm (M x) (fluxVal is (List.replicate is.length n) x) =
      Verif.QN.norm (M x) (fluxVal is (List.replicate is.length 0) x))
    {s : Sto K} (hs : s.OK) (hlen : s.length = zs.sum) {fuel : Nat} (hf : zs.length ^ is.length < fuel) (hmax : ((zs.length ^ is.length : Nat) : Int) ≤ offMax) :
    ∃ d, qdiagToDense fuel is s = some (.ok d) ∧ WF is d.offsets d.size ∧
      ∀ ind, Valid (is.map fun _ => zs.sum) ind → ∃ x, DiagOps.QDiag.getElt s ind = .ok x ∧ getElt d is ind = .ok x := by
  have hz' : ∀ I ∈ is, szs I = zs := hz
  have hzl : 0 < zs.length := List.length_pos_iff.2 hsec
  have hnb : nb is = List.replicate is.length zs.length := by
    rw [List.eq_replicate_iff]
    refine ⟨by simp [nb], fun x hx => ?_⟩
    obtain ⟨I, hI, rfl⟩ := List.mem_map.1 hx
    rw [← szs_length, hz' I hI]
  have hprod : (nb is).prod = zs.length ^ is.length := by rw [hnb, List.prod_replicate]
  have hv0 := valid_rep hz' hzl
  obtain ⟨k1, k2⟩ := fluxOf_val hok hv0 (Verif.QN.isQN_default M)
      (by intro v hv hv2; have := (List.mem_replicate.1 hv).2; subst this; cases hv2)
  have hq : qdiagDiv is = .ok (fluxOf is (List.replicate is.length 0) Verif.QN.QN.default) := blockQN_ok hv0 _
  obtain ⟨nd, n1, n2, n3, n4⟩ := C21_ofDiv (K := Cx K) (is := is) hne (fun I hI => by rw [← szs_length, hz' I hI]; exact hzl) hok k1 fuel
    (by rw [hprod]; exact hf) (by rw [hprod]; exact hmax)
  obtain ⟨m, e1, e2, _⟩ := tdFold_spec hne hz' hs hlen n2 nd.offsets nd.data (fun _ h => h) (n2.sorted.imp (fun {a b} h e => by
    subst e; rw [blockLt_irrefl] at h; cases h)) (fun o _ u _ => n3 _)
  refine ⟨{ nd with data := m }, ?_, n2, fun ind hind => ?_⟩
  · unfold qdiagToDense
    rw [hq]
    simp only [n1, Run.bind, e1, Res.map]
  · have hdims : (is.map fun _ => zs.sum) = dims is := List.map_congr_left fun I hI => by rw [hz' I hI]
    rw [hdims] at hind
    obtain ⟨b, u, hb, hu, rfl⟩ := exists_glue hind
    have hgl : (glue is b u).length = is.length := by rw [valid_length hind]; simp [dims]
    have hgne : glue is b u ≠ [] := by
      intro e
      rw [e] at hgl
      exact hne (List.length_eq_zero_iff.1 hgl.symm)
    have hread := getElt_glue (d := { nd with data := m }) n2 hb hu
    refine ⟨tv s (glue is b u), ?_, ?_⟩
    · have hsh := DiagOps.QDiag.shows hs
      unfold tv
      by_cases hc : (glue is b u).any (· != (glue is b u).headD 0) = true
      · rw [if_pos hc]
        refine hsh.off _ ?_
        obtain ⟨x, hx, hx2⟩ := List.any_eq_true.1 hc
        refine ⟨x, hx, (glue is b u).headD 0, ?_, by simpa using hx2⟩
        cases hg : glue is b u with
        | nil => exact absurd hg hgne
        | cons a l => simp
      · rw [if_neg hc]
        rw [Bool.not_eq_true] at hc
        refine hsh.diag _ ?_ _ hgne fun x hx => by
          have := List.any_eq_false.1 hc x hx
          simpa using this
        rw [hlen]
        cases is with
        | nil => exact absurd rfl hne
        | cons I is =>
          rw [show dims (I :: is) = (szs I).sum :: dims is from rfl] at hind
          match hgx : glue (I :: is) b u, hind with
          | _ :: _, .cons h1 _ =>
            rw [hz' I (by simp)] at h1
            exact h1
    · rw [hread]
      congr 1
      unfold elem
      by_cases hmem : ∃ o ∈ nd.offsets, o.block = b
      · obtain ⟨o, ho, rfl⟩ := hmem
        rw [getBlock_mem (d := { nd with data := m }) n2 ho]
        exact e2 o ho u hu
      · rw [getBlock_notMem (d := { nd with data := m }) n2 hb (fun o ho e => hmem ⟨o, ho, e⟩)]
        symm
        unfold tv
        rw [if_pos]
        by_contra hc
        rw [Bool.not_eq_true] at hc
        have hhead : (glue is b u).headD 0 < zs.sum := by
          cases is with
          | nil => exact absurd rfl hne
          | cons I is =>
            rw [show dims (I :: is) = (szs I).sum :: dims is from rfl] at hind
            match hgx : glue (I :: is) b u, hind with
            | _ :: _, .cons h1 _ =>
              rw [hz' I (by simp)] at h1
              exact h1
        obtain ⟨n, i, h1, h2, h3⟩ := exists_gl zs _ hhead
        have hbr := (glue_const hz' hb hu (J := (glue is b u).headD 0) (fun x hx => by
          have := List.any_eq_false.1 hc x hx
          simpa using this) n i h1 h2 h3).1
        subst hbr
        refine hmem ((n4 _).2 ⟨?_, fun x => ?_⟩)
        · have := valid_rep hz' h1
          unfold Valid nb at this
          rw [List.forall₂_map_right_iff] at this
          exact this
        · have hk := k2 x
          rw [isQN_val_norm k1 x] at hk
          rw [hflux n h1 x, hk]
          have : (Verif.QN.QN.default).val x = 0 := by
            rw [(Verif.QN.WF.default M).val]; rfl
          rw [this, Int.zero_add]

end

/-- Two indices of dimension three with one quantum number, split into sectors differently. -/
def exSplit (id : Nat) (dir : Int) (a b : Nat) : Index := ⟨id, 3, dir, ⟨List.replicate 4 Verif.TagSet.Tag.empty, 0, 0⟩, [(exQ 1, a), (exQ 1, b)]⟩

/-- **C67 is false when the indices are split into sectors differently** (qdiag.cc:620-621, "maybe this is not always true?"): for the delta
tensor on an index with sectors of sizes 2 and 1 and one with sectors of sizes 1 and 2, all of the same quantum number, element (1,1) is lost and a one is written at (0,1). -/
theorem C67_sectors_counterexample :
    let is := [exSplit 1 1 2 1, exSplit 2 (-1) 1 2]
    let s : Sto Int := ⟨false, [], ⟨1, 0⟩, 3⟩
    (qdiagToDense 100 is s).map (fun r => r.bind fun d => (getElt d is [1, 1]).bind fun x => (getElt d is [0, 1]).map fun y => (x, y)) =
      some (.ok (0, 1)) ∧ DiagOps.QDiag.getElt s [1, 1] = .ok 1 ∧ DiagOps.QDiag.getElt s [0, 1] = .ok 0 :=
  ⟨by decide +kernel, by decide +kernel, by decide +kernel⟩

/-- The hypotheses of `C67_toDense_partial` hold of a tensor with stored elements on the indices of the example, sectors of sizes 2 and 1. -/
example : ∃ d, qdiagToDense 100 [exI 1 1, exI 2 (-1)] (⟨false, [⟨5, 0⟩, ⟨6, 0⟩, ⟨7, 0⟩], 0, 3⟩ : Sto Int) = some (.ok d) ∧
    getElt d [exI 1 1, exI 2 (-1)] [2, 2] = .ok ⟨7, 0⟩ ∧ getElt d [exI 1 1, exI 2 (-1)] [0, 1] = .ok 0 := by
  obtain ⟨d, h1, _, h3⟩ := C67_toDense_partial (zs := [2, 1]) (is := [exI 1 1, exI 2 (-1)]) (by simp) (by simp) (by decide) exSectors
    (by
      intro n hn x
      have : n = 0 ∨ n = 1 := by simp at hn; omega
      rcases this with rfl | rfl
      · rfl
      · simp [fluxVal, exI, Verif.QN.norm])
    (s := (⟨false, [⟨5, 0⟩, ⟨6, 0⟩, ⟨7, 0⟩], 0, 3⟩ : Sto Int)) ⟨by decide, .inr rfl, by decide, by decide⟩ rfl (fuel := 100) (by decide) (by decide)
  refine ⟨d, h1, ?_, ?_⟩
  · obtain ⟨x, x1, x2⟩ := h3 [2, 2] (.cons (by decide) (.cons (by decide) .nil))
    rw [x2, ← x1]
    decide +kernel
  · obtain ⟨x, x1, x2⟩ := h3 [0, 1] (.cons (by decide) (.cons (by decide) .nil))
    rw [x2, ← x1]
    decide +kernel

end Verif.QDense
