import Verif.Util.Stream
import Mathlib.Tactic.Positivity
import Mathlib.Tactic.NormNum

/-!
# C33: reading what was written gives the value back and leaves the rest of the stream

`RT w r P`: for every value satisfying `P`, followed by any bytes.
-/

namespace Verif.Stream

open Verif.TagSet (Tag TagSet)
open Verif.QN (QNum)
open Verif.Index (Index)

/-- Round trip of writer `w` and reader `r` on the values satisfying `P`, whatever follows. -/
def RT {α : Type*} (w : α → Bytes) (r : Reader α) (P : α → Prop) : Prop :=
  ∀ x, P x → ∀ rest, r (w x ++ rest) = .ok (x, rest)

theorem bind_run {α β : Type*} {r : Reader α} {f : α → Reader β} {b rest : Bytes} {a : α}
    (h : r (b ++ rest) = .ok (a, rest)) : (r.bind f) (b ++ rest) = f a rest := by
  rw [Reader.bind, h, Res.bind_ok]

theorem readN_run (b rest : Bytes) : readN b.length (b ++ rest) = .ok (b, rest) := by
  simp [readN]

theorem leBytes_length (k n : Nat) : (leBytes k n).length = k := by
  induction k generalizing n with
  | zero => rfl
  | succ k ih => simp [leBytes, ih]

theorem leVal_leBytes (k n : Nat) : leVal (leBytes k n) = n % 256 ^ k := by
  induction k generalizing n with
  | zero => simp [leBytes, leVal, Nat.mod_one]
  | succ k ih =>
    have h : (UInt8.ofNat n).toNat = n % 256 := by simp
    rw [leBytes, leVal, ih, h, Nat.pow_succ, Nat.mul_comm (256 ^ k) 256, Nat.mod_mul]

theorem rt_U (k : Nat) : RT (writeU k) (readU k) (· < 256 ^ k) := by
  intro x hx rest
  have h := readN_run (leBytes k x) rest
  rw [leBytes_length] at h
  rw [readU, writeU, bind_run h, leVal_leBytes, Nat.mod_eq_of_lt hx]
  rfl

/-- Range of a signed type of `k` bytes. -/
def IRange (k : Nat) (z : Int) : Prop := -(256 ^ k : Int) ≤ 2 * z ∧ 2 * z < 256 ^ k

theorem rt_I (k : Nat) : RT (writeI k) (readI k) (IRange k) := by
  intro x hx rest
  obtain ⟨h1, h2⟩ := hx
  have hp : (0 : Int) < 256 ^ k := by positivity
  have h0 := Int.emod_nonneg x (b := 256 ^ k) (by omega)
  have hl := Int.emod_lt_of_pos x hp
  have hc : (((256 : Nat) ^ k : Nat) : Int) = 256 ^ k := by push_cast; rfl
  have hu := rt_U k (x % 256 ^ k).toNat (by
    dsimp only
    rw [← Int.ofNat_lt, hc, Int.toNat_of_nonneg h0]; exact hl) rest
  rw [readI, writeI, ← writeU, bind_run hu, Reader.pure]
  congr 2
  rw [Int.toNat_of_nonneg h0]
  by_cases hx : 0 ≤ x
  · have he : x % 256 ^ k = x := Int.emod_eq_of_lt hx (by omega)
    rw [he, if_pos]
    omega
  · have he : x % 256 ^ k = x + 256 ^ k := by
      rw [← Int.add_emod_right, Int.emod_eq_of_lt (by omega) (by omega)]
    rw [he, if_neg] <;> omega

theorem rt_bool : RT writeBool readBool (fun _ => True) := by
  intro x _ rest
  cases x <;> rfl

theorem rt_real : RT writeReal readReal (fun _ => True) := by
  intro x _ rest
  rw [readReal, writeReal, bind_run (rt_U 8 x.toNat (by have := x.toNat_lt; omega) rest), Reader.pure]
  simp

theorem rt_cplx : RT writeCplx readCplx (fun _ => True) := by
  intro x _ rest
  rw [readCplx, writeCplx, List.append_assoc, bind_run (rt_real _ trivial _), bind_run (rt_real _ trivial _)]
  rfl

theorem rt_string : RT writeString readString (fun l => l.length < 256 ^ 8) := by
  intro x hx rest
  rw [readString, writeString, List.append_assoc, bind_run (rt_U 8 _ hx _), readN_run]

theorem rt_many {α : Type*} {w : α → Bytes} {r : Reader α} {P : α → Prop} (h : RT w r P) (l : List α)
    (hl : ∀ x ∈ l, P x) (rest : Bytes) : readMany r l.length (writeMany w l ++ rest) = .ok (l, rest) := by
  induction l with
  | nil => rfl
  | cons x l ih =>
    have e : writeMany w (x :: l) ++ rest = w x ++ (writeMany w l ++ rest) := by
      simp [writeMany]
    rw [List.length_cons, readMany, e, bind_run (h x (hl x (by simp)) _),
      bind_run (ih fun y hy => hl y (by simp [hy]))]
    rfl

theorem rt_vec {α : Type*} {w : α → Bytes} {r : Reader α} {P : α → Prop} (h : RT w r P) :
    RT (writeVec w) (readVec r) (fun l => l.length < 256 ^ 8 ∧ ∀ x ∈ l, P x) := by
  intro l hl rest
  rw [readVec, writeVec, List.append_assoc, bind_run (rt_U 8 _ hl.1 _), rt_many h l hl.2]

theorem rt_arr {α : Type*} {w : α → Bytes} {r : Reader α} {P : α → Prop} (h : RT w r P) (n : Nat) :
    RT (writeArr w) (readArr n r) (fun l => l.length = n ∧ ∀ x ∈ l, P x) := by
  rintro l ⟨rfl, hl⟩ rest
  exact rt_many h l hl rest

theorem rt_tag : RT writeTag readTag (fun _ => True) := by
  intro t _ rest
  have h : readN 7 (writeTag t ++ rest) = .ok (writeTag t, rest) := readN_run t.chars rest
  rw [readTag, bind_run h, writeTag, Verif.TagSet.TagSet.chars_ofBytes]
  rfl

open Verif.TagSet.TagSet in
/-- Adding to a clean set keeps it clean. -/
theorem foldAdd_clean (l : List Tag) : ∀ {T T' : TagSet}, Reach T → Clean T →
    Res.foldM TagSet.addTag T l = .ok T' → Reach T' ∧ Clean T' := by
  induction l with
  | nil => intro T T' hr hc h; cases h; exact ⟨hr, hc⟩
  | cons t l ih =>
    intro T T' hr hc h
    simp only [Res.foldM_cons, Res.bind_eq_ok] at h
    obtain ⟨T1, h1, h2⟩ := h
    have hs : T.step (.addTag t) = .ok T1 := h1
    exact ih (Reach.step hr (by simp [Op.args]) hs) (C03_clean_step hr.inv hc (Or.inl ⟨t, rfl⟩) hs) h2

open Verif.TagSet.TagSet in
/-- The tag set read back is not only equal, it is the same object state. -/
theorem tagset_exact {T : TagSet} (hT : Reach T) (hc : Clean T) :
    ∃ T1, Res.foldM TagSet.addTag TagSet.default T.tags = .ok T1 ∧ T1.setPrime T.plev = T := by
  obtain ⟨T', h1, h2⟩ := C03_roundtrip_partial hT hc
  have hm : (T.tags.map Tag.chars).map Tag.ofBytes = T.tags := by
    rw [List.map_map]
    have : (Tag.ofBytes ∘ Tag.chars) = id := funext chars_ofBytes
    rw [this, List.map_id]
  simp only [TagSet.read, TagSet.write, hm, Res.bind_eq_ok] at h1
  obtain ⟨T1, e1, e2⟩ := h1
  obtain ⟨r1, c1⟩ := foldAdd_clean _ Reach.init (by intro t ht; simpa [TagSet.default] using ht) e1
  refine ⟨T1, e1, ?_⟩
  cases e2
  have hs : T1.size = T.size ∧ T1.live = T.live := by
    simp only [TagSet.eq] at h2
    split at h2
    · cases h2
    · split at h2
      · cases h2
      · rename_i _ h; exact ⟨by simpa [TagSet.setPrime] using h, by have h3 := beq_iff_eq.1 h2; exact h3⟩
  have htail : ∀ S : TagSet, Reach S → Clean S →
      S.tags = S.live ++ List.replicate (Verif.TagSet.maxTags - S.size) Tag.empty := by
    intro S hr hcl
    have : S.tags.drop S.size = List.replicate (Verif.TagSet.maxTags - S.size) Tag.empty := by
      rw [List.eq_replicate_iff]
      exact ⟨by rw [List.length_drop, hr.inv.len], hcl⟩
    rw [← this, TagSet.live, List.take_append_drop]
  have h3 := htail T1 r1 c1
  have h4 := htail T hT hc
  have h5 : T1.tags = T.tags := by rw [h3, h4, hs.1, hs.2]
  have h6 := hs.1
  cases T1; cases T
  dsimp only at h5 h6
  simp only [TagSet.setPrime, h5, h6]

theorem readTagsLoop_eq (l : List Tag) : ∀ (T T' : TagSet) (rest : Bytes),
    Res.foldM TagSet.addTag T l = .ok T' →
    readTagsLoop l.length T (writeMany writeTag l ++ rest) = .ok (T', rest) := by
  induction l with
  | nil => intro T T' rest h; cases h; rfl
  | cons t l ih =>
    intro T T' rest h
    simp only [Res.foldM_cons, Res.bind_eq_ok] at h
    obtain ⟨T1, h1, h2⟩ := h
    have e : writeMany writeTag (t :: l) ++ rest = writeTag t ++ (writeMany writeTag l ++ rest) := by
      simp [writeMany]
    rw [List.length_cons, readTagsLoop, e, bind_run (rt_tag t trivial _), h1, Res.bind_ok, ih _ _ _ h2]

/-- The tag sets that survive: built by the API, unused slots empty, prime level in range of `int`. -/
def TagsOK (T : TagSet) : Prop := Verif.TagSet.TagSet.Reach T ∧ Verif.TagSet.TagSet.Clean T ∧ IRange 4 T.plev

theorem rt_tags : RT writeTags (readTags TagSet.default) TagsOK := by
  intro T hT rest
  obtain ⟨hr, hc, hp⟩ := hT
  obtain ⟨T1, h1, h2⟩ := tagset_exact hr hc
  have hl := hr.inv.len
  have h3 := readTagsLoop_eq T.tags _ _ (writeI 4 T.plev ++ rest) h1
  rw [hl] at h3
  rw [readTags, writeTags, List.append_assoc, bind_run h3, bind_run (rt_I 4 _ hp _), Reader.pure, h2]

/-- A QN slot as stored by the constructors: value reduced by its modulus, numbers in range of `int`. -/
def QNumOK (v : QNum) : Prop := QNum.make v.name v.val v.mod = v ∧ IRange 4 v.val ∧ IRange 4 v.mod

theorem rt_qnum : RT writeQNum readQNum QNumOK := by
  rintro v ⟨h1, h2, h3⟩ rest
  rw [readQNum, writeQNum, List.append_assoc, List.append_assoc, bind_run (rt_tag _ trivial _),
    bind_run (rt_I 4 _ h2 _), bind_run (rt_I 4 _ h3 _), h1]
  rfl

/-- Any QN built by the API (whatever modulus belongs to each name), numbers in range of `int`. -/
def QNOK (q : Verif.QN.QN) : Prop :=
  (∃ M, Verif.QN.IsQN M q) ∧ ∀ v ∈ q, IRange 4 v.val ∧ IRange 4 v.mod

theorem rt_qn : RT writeQN readQN QNOK := by
  rintro q ⟨⟨M, hM⟩, hr⟩ rest
  have hl : q.length = Verif.QN.qnSize := by
    obtain ⟨l, h⟩ := hM
    have := h.len
    rw [h.eq]; simp; omega
  have hx := Verif.QN.C09_binary_roundtrip hM
  have hok : ∀ v ∈ q, QNumOK v := by
    intro v hv
    refine ⟨?_, hr v hv⟩
    rw [Verif.QN.QN.read, Verif.QN.QN.write, List.map_map] at hx
    conv at hx => rhs; rw [← List.map_id q]
    exact List.map_inj_left.1 hx v hv
  have := rt_many rt_qnum q hok rest
  rw [hl] at this
  exact this

theorem rt_qnint : RT writeQNInt readQNInt (fun q => QNOK q.1 ∧ IRange 8 q.2) := by
  rintro q ⟨h1, h2⟩ rest
  rw [readQNInt, writeQNInt, List.append_assoc, bind_run (rt_qn _ h1 _), bind_run (rt_I 8 _ h2 _)]
  simp [Reader.pure]

/-- Indices the theorems cover: not default-constructed, numbers in range of their C++ types. -/
structure IndexOK (I : Index) : Prop where
  tags : TagsOK I.tags
  set : I.id ≠ 0
  id : I.id < 256 ^ 8
  dim : IRange 4 I.dim
  dir : IRange 4 I.dir
  nblock : I.qns.length < 256 ^ 8
  qns : ∀ q ∈ I.qns, QNOK q.1 ∧ IRange 8 q.2

/-- **C33, index (partial).** Every index survives, read into a default-constructed one. Missing: tag
sets with stale slots (`C03_noTags_counterexample`) and reading into an index in use
(`C33_index_counterexample`). -/
theorem C33_index_partial {I : Index} (h : IndexOK I) :
    ∃ b, writeIndex I = .ok b ∧ ∀ rest, readIndex nullIndex (b ++ rest) = .ok (I, rest) := by
  refine ⟨_, by rw [writeIndex, if_pos]; simpa [isSet] using h.set, fun rest => ?_⟩
  simp only [List.append_assoc]
  have ht := rt_tags I.tags h.tags
  rw [readIndex]
  change (readTags TagSet.default).bind _ _ = _
  rw [bind_run (ht _), bind_run (rt_U 8 _ h.id _), bind_run (rt_I 4 _ h.dim _), bind_run (rt_I 4 _ h.dir _),
    bind_run (rt_vec rt_qnint _ ⟨h.nblock, h.qns⟩ _), Reader.pure]
  have : (if I.qns.length > 0 then I.qns else nullIndex.qns) = I.qns := by
    split
    · rfl
    · rename_i hz; rw [List.length_eq_zero_iff.1 (by omega : I.qns.length = 0)]; rfl
  simp [this]

/-- **C33, index set (partial).** Same restriction on the tag sets. -/
theorem C33_indexset_partial {l : List (Index × Nat)} (hl : l.length < 256 ^ 8)
    (h : ∀ x ∈ l, IndexOK x.1 ∧ x.2 < 256 ^ 8) :
    ∃ b, writeInds l = .ok b ∧ ∀ rest, readInds (b ++ rest) = .ok (l, rest) := by
  have key : ∃ b, writeManyR writeIndStr l = .ok b ∧
      ∀ rest, readMany readIndStr l.length (b ++ rest) = .ok (l, rest) := by
    clear hl
    induction l with
    | nil => exact ⟨[], rfl, fun _ => rfl⟩
    | cons x l ih =>
      obtain ⟨b, e, hb⟩ := ih fun y hy => h y (by simp [hy])
      obtain ⟨hi, hs⟩ := h x (by simp)
      obtain ⟨c, ec, hc⟩ := C33_index_partial hi
      refine ⟨c ++ writeU 8 x.2 ++ b, by rw [writeManyR, writeIndStr, ec, Res.bind_ok, Res.bind_ok, e]; rfl, fun rest => ?_⟩
      have hx : readIndStr ((c ++ writeU 8 x.2) ++ (b ++ rest)) = .ok (x, b ++ rest) := by
        rw [readIndStr, List.append_assoc, bind_run (hc _), bind_run (rt_U 8 _ hs _)]
        rfl
      rw [List.length_cons, readMany, List.append_assoc, bind_run hx, bind_run (hb rest)]
      rfl
  obtain ⟨b, e, hb⟩ := key
  refine ⟨_, by rw [writeInds, e, Res.bind_ok], fun rest => ?_⟩
  rw [readInds, readVec, List.append_assoc, bind_run (rt_U 8 _ hl _), hb]

theorem rt_blof : RT writeBlOf readBlOf
    (fun b => (b.1.length < 256 ^ 8 ∧ ∀ x ∈ b.1, IRange 8 x) ∧ IRange 8 b.2) := by
  rintro b ⟨h1, h2⟩ rest
  rw [readBlOf, writeBlOf, List.append_assoc, bind_run (rt_vec (rt_I 8) _ h1 _), bind_run (rt_I 8 _ h2 _)]
  rfl

theorem rt_extstr : RT writeExtStr readExtStr (fun x => x.1 < 256 ^ 8 ∧ x.2 < 256 ^ 8) := by
  rintro b ⟨h1, h2⟩ rest
  rw [readExtStr, writeExtStr, List.append_assoc, bind_run (rt_U 8 _ h1 _), bind_run (rt_U 8 _ h2 _)]
  rfl

theorem rt_blockrange : RT writeBlockRange readBlockRange
    (fun x => x.1 < 256 ^ 8 ∧ x.2.1 < 256 ^ 8 ∧ x.2.2 < 256 ^ 8) := by
  rintro b ⟨h1, h2, h3⟩ rest
  rw [readBlockRange, writeBlockRange, List.append_assoc, List.append_assoc, bind_run (rt_U 8 _ h1 _),
    bind_run (rt_U 8 _ h2 _), bind_run (rt_U 8 _ h3 _)]
  rfl

/-- Sizes and offsets fit their C++ types. -/
def Storage.OK : Storage → Prop
  | .denseReal s => s.length < 256 ^ 8
  | .denseCplx s => s.length < 256 ^ 8
  | .combiner => True
  | .diagReal _ n s => n < 256 ^ 8 ∧ s.length < 256 ^ 8
  | .diagCplx _ n s => n < 256 ^ 8 ∧ s.length < 256 ^ 8
  | .qdenseReal o s => (o.length < 256 ^ 8 ∧
      ∀ b ∈ o, (b.1.length < 256 ^ 8 ∧ ∀ x ∈ b.1, IRange 8 x) ∧ IRange 8 b.2) ∧ s.length < 256 ^ 8
  | .qdenseCplx o s => (o.length < 256 ^ 8 ∧
      ∀ b ∈ o, (b.1.length < 256 ^ 8 ∧ ∀ x ∈ b.1, IRange 8 x) ∧ IRange 8 b.2) ∧ s.length < 256 ^ 8
  | .qcombiner r s => (r.length < 256 ^ 8 ∧ ∀ x ∈ r, x.1 < 256 ^ 8 ∧ x.2 < 256 ^ 8) ∧
      (s.length < 256 ^ 8 ∧ ∀ x ∈ s, x.1 < 256 ^ 8 ∧ x.2.1 < 256 ^ 8 ∧ x.2.2 < 256 ^ 8)
  | .qdiagReal _ n s => n < 256 ^ 8 ∧ s.length < 256 ^ 8
  | .qdiagCplx _ n s => n < 256 ^ 8 ∧ s.length < 256 ^ 8
  | .scalarReal _ => True
  | .scalarCplx _ => True

theorem rt_diag {α : Type*} {w : α → Bytes} {r : Reader α} (h : RT w r fun _ => True)
    (mk : α → Nat → List α → Storage) (v : α) (n : Nat) (s : List α) (hn : n < 256 ^ 8)
    (hs : s.length < 256 ^ 8) (rest : Bytes) :
    readDiag r mk ((w v ++ (writeU 8 n ++ writeVec w s)) ++ rest) = .ok (mk v n s, rest) := by
  rw [readDiag, List.append_assoc, List.append_assoc, bind_run (h v trivial _), bind_run (rt_U 8 _ hn _),
    bind_run (rt_vec h _ ⟨hs, fun _ _ => trivial⟩ _)]
  rfl

theorem rt_qdense {α : Type*} {w : α → Bytes} {r : Reader α} (h : RT w r fun _ => True)
    (mk : List (List Int × Int) → List α → Storage) (o : List (List Int × Int)) (s : List α)
    (ho : o.length < 256 ^ 8 ∧ ∀ b ∈ o, (b.1.length < 256 ^ 8 ∧ ∀ x ∈ b.1, IRange 8 x) ∧ IRange 8 b.2)
    (hs : s.length < 256 ^ 8) (rest : Bytes) :
    readQDense r mk ((writeVec writeBlOf o ++ writeVec w s) ++ rest) = .ok (mk o s, rest) := by
  rw [readQDense, List.append_assoc, bind_run (rt_vec rt_blof _ ho _),
    bind_run (rt_vec h _ ⟨hs, fun _ _ => trivial⟩ _)]
  rfl

/-- **C33, storage.** Each of the twelve storage types survives when read under its own type code. -/
theorem C33_storage (old : Option Storage) {s : Storage} (h : s.OK) (rest : Bytes) :
    readStorage old s.code (s.write ++ rest) = .ok (some s, rest) := by
  have vr : ∀ l : List Real64, l.length < 256 ^ 8 → ∀ rest, readVec readReal (writeVec writeReal l ++ rest) = .ok (l, rest) :=
    fun l hl => rt_vec rt_real l ⟨hl, fun _ _ => trivial⟩
  have vc : ∀ l : List (Real64 × Real64), l.length < 256 ^ 8 →
      ∀ rest, readVec readCplx (writeVec writeCplx l ++ rest) = .ok (l, rest) :=
    fun l hl => rt_vec rt_cplx l ⟨hl, fun _ _ => trivial⟩
  cases s with
  | denseReal s => simp only [readStorage, Storage.code, Storage.write, reduceIte, Int.reduceEq]; rw [bind_run (vr s h rest)]; rfl
  | denseCplx s => simp only [readStorage, Storage.code, Storage.write, reduceIte, Int.reduceEq]; rw [bind_run (vc s h rest)]; rfl
  | combiner => rfl
  | diagReal v n s => simp only [readStorage, Storage.code, Storage.write, reduceIte, Int.reduceEq]; rw [bind_run (rt_diag rt_real _ v n s h.1 h.2 rest)]; rfl
  | diagCplx v n s => simp only [readStorage, Storage.code, Storage.write, reduceIte, Int.reduceEq]; rw [bind_run (rt_diag rt_cplx _ v n s h.1 h.2 rest)]; rfl
  | qdenseReal o s => simp only [readStorage, Storage.code, Storage.write, reduceIte, Int.reduceEq]; rw [bind_run (rt_qdense rt_real _ o s h.1 h.2 rest)]; rfl
  | qdenseCplx o s => simp only [readStorage, Storage.code, Storage.write, reduceIte, Int.reduceEq]; rw [bind_run (rt_qdense rt_cplx _ o s h.1 h.2 rest)]; rfl
  | qcombiner r s =>
    simp only [readStorage, Storage.code, Storage.write, reduceIte, Int.reduceEq]
    rw [List.append_assoc, bind_run (rt_vec rt_extstr _ h.1 _),
      bind_run (rt_vec rt_blockrange _ h.2 _)]
    rfl
  | qdiagReal v n s => simp only [readStorage, Storage.code, Storage.write, reduceIte, Int.reduceEq]; rw [bind_run (rt_diag rt_real _ v n s h.1 h.2 rest)]; rfl
  | qdiagCplx v n s => simp only [readStorage, Storage.code, Storage.write, reduceIte, Int.reduceEq]; rw [bind_run (rt_diag rt_cplx _ v n s h.1 h.2 rest)]; rfl
  | scalarReal v => simp only [readStorage, Storage.code, Storage.write, reduceIte, Int.reduceEq]; rw [bind_run (rt_real v trivial rest)]; rfl
  | scalarCplx v => simp only [readStorage, Storage.code, Storage.write, reduceIte, Int.reduceEq]; rw [bind_run (rt_cplx v trivial rest)]; rfl

theorem rt_log : RT writeLog readLog (fun x => IRange 4 x.sign) := by
  rintro x h rest
  rw [readLog, writeLog, List.append_assoc, bind_run (rt_real _ trivial _), bind_run (rt_I 4 _ h _)]
  rfl

/-- **C33, tensor (partial).** Every tensor with storage, read into any tensor; a tensor without storage, read
into one without storage. -/
theorem C33_tensor_partial {T old : Tensor} (hl : T.inds.length < 256 ^ 8)
    (hi : ∀ x ∈ T.inds, IndexOK x.1 ∧ x.2 < 256 ^ 8) (hsc : IRange 4 T.scale.sign)
    (hs : ∀ s ∈ T.store, s.OK) (ho : T.store = none → old.store = none) :
    ∃ b, writeTensor T = .ok b ∧ ∀ rest, readTensor old (b ++ rest) = .ok (T, rest) := by
  obtain ⟨b, e, hb⟩ := C33_indexset_partial hl hi
  cases hst : T.store with
  | none =>
    refine ⟨_, by rw [writeTensor, e, Res.bind_ok, hst], fun rest => ?_⟩
    simp only [List.append_assoc]
    rw [readTensor, bind_run (hb _), bind_run (rt_log _ hsc _), bind_run (rt_I 4 0 ⟨by norm_num, by norm_num⟩ _), ho hst]
    simp only [readStorage, if_true, Reader.pure, Reader.bind, Res.bind_ok]
    rw [← hst]
  | some s =>
    refine ⟨_, by rw [writeTensor, e, Res.bind_ok, hst], fun rest => ?_⟩
    simp only [List.append_assoc]
    have hc : IRange 4 s.code := by cases s <;> exact ⟨by simp only [Storage.code]; norm_num, by simp only [Storage.code]; norm_num⟩
    rw [readTensor, bind_run (hb _), bind_run (rt_log _ hsc _), bind_run (rt_I 4 _ hc _),
      bind_run (C33_storage _ (hs s hst) _), ← hst]
    rfl

/-- **C33, plain values and containers.** Integers of `k` bytes, bools, strings, complex numbers; and
vectors and arrays of anything that survives (so containers nested to any depth). -/
theorem C33_values :
    (∀ k, RT (writeU k) (readU k) (· < 256 ^ k)) ∧
    (∀ k, RT (writeI k) (readI k) (fun z => -(256 ^ k : Int) ≤ 2 * z ∧ 2 * z < 256 ^ k)) ∧
    RT writeBool readBool (fun _ => True) ∧ RT writeReal readReal (fun _ => True) ∧
    RT writeCplx readCplx (fun _ => True) ∧ RT writeString readString (fun l => l.length < 256 ^ 8) :=
  ⟨rt_U, rt_I, rt_bool, rt_real, rt_cplx, rt_string⟩

theorem C33_containers {α : Type*} {w : α → Bytes} {r : Reader α} {P : α → Prop} (h : RT w r P) :
    RT (writeVec w) (readVec r) (fun l => l.length < 256 ^ 8 ∧ ∀ x ∈ l, P x) ∧
    ∀ n, RT (writeArr w) (readArr n r) (fun l => l.length = n ∧ ∀ x ∈ l, P x) :=
  ⟨rt_vec h, rt_arr h⟩

/-- **C33, tag sets (without stale slots) and QNs (partial).** The exact object state comes back. -/
theorem C33_tagset_qn_partial : RT writeTags (readTags TagSet.default) TagsOK ∧ RT writeQN readQN QNOK :=
  ⟨rt_tags, rt_qn⟩

/-- Contents of an index for the examples: id 7, dimension 5, arrow In, tags "a", two QN blocks. -/
def exIndex : Index :=
  ⟨7, 5, -1, ⟨[Tag.ofBytes [97], .empty, .empty, .empty], 0, 1⟩,
    [([⟨Tag.ofBytes [83, 122], -1, 1⟩, .none, .none, .none], 2),
     ([⟨Tag.ofBytes [83, 122], 1, 1⟩, .none, .none, .none], 3)]⟩

/-- The example index meets the hypotheses. -/
theorem exIndex_ok : IndexOK exIndex := by
  have hq : ∀ v : Int, Verif.QN.IsQN (fun _ => 1) [⟨Tag.ofBytes [83, 122], v, 1⟩, .none, .none, .none] := by
    intro v
    refine ⟨[⟨Tag.ofBytes [83, 122], v, 1⟩], rfl, by simp [Verif.QN.qnSize], List.pairwise_singleton _ _, ?_, ?_, ?_⟩ <;>
      simp [Verif.QN.norm]
  refine ⟨⟨?_, ?_, ?_⟩, ?_, ?_, ?_, ?_, ?_, ?_⟩
  · exact .step (T := ⟨[Tag.ofBytes [97], .empty, .empty, .empty], -1, 1⟩) (op := .setPrime 0)
      (.step (op := .addTag (Tag.ofBytes [97])) .init (by simp [Verif.TagSet.TagSet.Op.args]) (by decide))
      (by simp [Verif.TagSet.TagSet.Op.args]) (by decide)
  · unfold Verif.TagSet.TagSet.Clean; decide
  iterate 6 · norm_num [exIndex, IRange]
  · intro q hm
    simp only [exIndex, List.mem_cons, List.not_mem_nil, or_false] at hm
    rcases hm with rfl | rfl
    all_goals
      refine ⟨⟨⟨_, hq _⟩, ?_⟩, ?_⟩ <;> norm_num [IRange, QNum.none]

example : ∃ b, writeTensor ⟨[(exIndex, 1)], ⟨0, 1⟩, some (.qdenseReal [([0], 0)] [5, 6])⟩ = .ok b ∧
    ∀ rest, readTensor ⟨[], ⟨0, 0⟩, none⟩ (b ++ rest) =
      .ok (⟨[(exIndex, 1)], ⟨0, 1⟩, some (.qdenseReal [([0], 0)] [5, 6])⟩, rest) :=
  C33_tensor_partial (by norm_num) (by
      intro x hx
      rw [List.mem_singleton.1 hx]
      exact ⟨exIndex_ok, by norm_num⟩) ⟨by norm_num, by norm_num⟩ (by
      intro s hs
      cases hs
      norm_num [Storage.OK, IRange]) (by simp)

example : readVec (readVec readString) (writeVec (writeVec writeString) [[[1, 2], []], [], [[7]]] ++ [9, 9]) =
    .ok ([[[1, 2], []], [], [[7]]], [9, 9]) := by decide +kernel

example : readI 4 (writeI 4 (-5) ++ [1]) = .ok (-5, [1]) ∧ writeI 4 (-5) = [251, 255, 255, 255] := by
  decide +kernel

/-- **C33 is false when reading into an index that is in use.** `Index::read` adds the tags read to
those present and keeps the QN blocks of the old index if the index read has none: an index without
QNs and with tag "b", read into the index above, gets tags "a,b" and its QN blocks. -/
theorem C33_index_counterexample :
    ∃ (I : Index) (b : Bytes) (J : Index), writeIndex I = .ok b ∧ readIndex exIndex b = .ok (J, []) ∧
      I.qns = [] ∧ J.qns = exIndex.qns ∧ I.tags.live = [Tag.ofBytes [98]] ∧
      J.tags.live = [Tag.ofBytes [97], Tag.ofBytes [98]] :=
  by
  refine ⟨⟨9, 2, 1, ⟨[Tag.ofBytes [98], .empty, .empty, .empty], 0, 1⟩, []⟩,
    [98, 0, 0, 0, 0, 0, 0] ++ List.replicate 21 0 ++ [0, 0, 0, 0, 9, 0, 0, 0, 0, 0, 0, 0, 2, 0, 0, 0, 1, 0, 0, 0] ++
      List.replicate 8 0,
    { exIndex with
      id := 9, dim := 2, dir := 1,
      tags := ⟨[Tag.ofBytes [97], Tag.ofBytes [98], .empty, .empty], 0, 2⟩ }, ?_⟩
  decide +kernel

/-- **C33 is false for a tensor without storage read into one that has storage**: the old storage
stays although the index set is replaced. -/
theorem C33_tensor_counterexample :
    ∃ (T old T' : Tensor) (b : Bytes), writeTensor T = .ok b ∧ readTensor old b = .ok (T', []) ∧
      T.store = none ∧ T'.store = some (.denseReal [5, 6]) ∧ T'.inds = [] :=
  by
  refine ⟨⟨[], ⟨0, 0⟩, none⟩, ⟨[], ⟨0, 0⟩, some (.denseReal [5, 6])⟩, ⟨[], ⟨0, 0⟩, some (.denseReal [5, 6])⟩,
    List.replicate 24 0, ?_⟩
  decide +kernel

end Verif.Stream
