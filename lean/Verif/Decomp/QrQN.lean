import Verif.Decomp.SvdRef

/-!
# The QR decomposition of a matrix with quantum numbers

Model of the branch for quantum numbers of `qrImpl` (`/repo/itensor/decomp.cc:1027-1173`). Property C95.

Simplifications. Quantum numbers are from any commutative group. A tensor is a list of blocks, and the
new tensors are given block by block, each block with its own memory (how blocks lie in one array is
the subject of C68). `QR` of one block is a parameter that may fail (its result is the subject of C93
and C94). A block is a function of its row and column, whether or not its memory is transposed. The
sort compares the sector of the column index, then the number of the block: sectors of the column
index are distinct. Tags are left out.
-/

namespace Verif.QrQN

open Verif.SvdRef (rrows)

variable {G K : Type*}

/-- An index with quantum numbers: the sectors with their sizes, and the direction (1 or -1). -/
structure Ind (G : Type*) where
  secs : List (G × ℕ)
  dir : ℤ

/-- `nblock(I)`. -/
def Ind.nblock (I : Ind G) : ℕ := I.secs.length

/-- `qn(I,1+i)`. -/
def Ind.qn [Zero G] (I : Ind G) (i : ℕ) : G := (I.secs.getD i (0, 0)).1

/-- `blocksize(I,1+i)`. -/
def Ind.size [Zero G] (I : Ind G) (i : ℕ) : ℕ := (I.secs.getD i (0, 0)).2

/-- `Ord2Block` (decomp.h:453-459): the sectors and the elements. -/
structure Blk (K : Type*) where
  i1 : ℕ
  i2 : ℕ
  M : ℕ → ℕ → K

/-- `QQ`, `RR` and the number of rows of `RR`. -/
structure Fac (K : Type*) where
  k : ℕ
  Q : ℕ → ℕ → K
  R : ℕ → ℕ → K

/-- `QR(matA,QQ,RR,args)`, with the numbers of rows and columns of the matrix. -/
abbrev Method (K : Type*) := ℕ → ℕ → (ℕ → ℕ → K) → Option ((ℕ → ℕ → K) × (ℕ → ℕ → K))

/-- The calls of `QR` in the first loop (decomp.cc:1050-1057). -/
def factors [Zero G] (qr : Method K) (complete : Bool) (qI rI : Ind G) : List (Blk K) → Res (List (Fac K))
  | [] => .ok []
  | B :: bs =>
    match qr (qI.size B.i1) (rI.size B.i2) B.M with
    | none => .throw
    | some (Q, R) => (factors qr complete qI rI bs).map
        (⟨rrows complete (qI.size B.i1) (rI.size B.i2), Q, R⟩ :: ·)

/-- `zerob` after the first loop (decomp.cc:1046-1054). -/
def zerob (qI : Ind G) (bs : List (Blk K)) : List ℕ :=
  (List.range qI.nblock).filter fun i => ! (bs.map (·.i1)).contains i

/-- One entry of `indLiq` (decomp.cc:1058-1062). -/
def entry [Zero G] (qI rI : Ind G) (p : (Blk K × Fac K) × ℕ) : ℕ × (G × ℕ) × ℕ :=
  (p.1.1.i2, (qI.qn p.1.1.i1, min p.1.2.k (rI.size p.1.1.i2)), p.2)

/-- The comparison of the sort (decomp.cc:1073). -/
def le (a b : ℕ × (G × ℕ) × ℕ) : Bool := a.1 < b.1 || (a.1 == b.1 && a.2.2 ≤ b.2.2)

/-- `indLiq` sorted by the sector of the column index (decomp.cc:1050-1073). -/
def indLiq [Zero G] (qI rI : Ind G) (ps : List (Blk K × Fac K)) : List (ℕ × (G × ℕ) × ℕ) :=
  (ps.zipIdx.map (entry qI rI)).mergeSort le

/-- `Liq`, the sectors of the new index (decomp.cc:1063-1101). -/
def liq [Zero G] (ut complete : Bool) (qI rI : Ind G) (ps : List (Blk K × Fac K)) : List (G × ℕ) :=
  (if ut then
    (indLiq qI rI ps).map (fun t => t.2.1) ++
      (if complete then
        (ps.filter fun p => rI.size p.1.i2 < qI.size p.1.i1).map fun p =>
          (qI.qn p.1.i1, qI.size p.1.i1 - rI.size p.1.i2)
      else [])
  else ps.map fun p => (qI.qn p.1.i1, p.2.k)) ++
  (if complete then (zerob qI (ps.map (·.1))).map fun b => (qI.qn b, qI.size b) else [])

/-- The elements of a tensor: block row, block column, position in the block. -/
abbrev Store (K : Type*) := ℕ → ℕ → ℕ → K

/-- `makeMatRef(p,nr,nc) &= f` for a block of `sz` elements: a matrix stored by columns at the start of
the block. -/
def put (sz nr nc : ℕ) (f : ℕ → ℕ → K) (m : ℕ → K) : Res (ℕ → K) :=
  if nr * nc ≤ sz then .ok fun t => if t < nr * nc then f (t % nr) (t / nr) else m t else .ub

/-- The same in block `(i,n)`. -/
def putIn (s : Store K) (i n sz nr nc : ℕ) (f : ℕ → ℕ → K) : Res (Store K) :=
  (put sz nr nc f (s i n)).map fun m => fun i' n' => if i' = i ∧ n' = n then m else s i' n'

section
variable [AddCommGroup G] [DecidableEq G]

/-- The blocks of `QDense(Qis,QN())` with `Qis = (qI,dag(qL))` (decomp.cc:1103-1107). -/
def exQ (qI L : Ind G) (i n : ℕ) : Bool :=
  i < qI.nblock && n < L.nblock && decide (qI.dir • qI.qn i + (-L.dir) • L.qn n = 0)

/-- The blocks of `QDense(Ris,div(A))` with `Ris = (rL,rI)` (decomp.cc:1106-1108). -/
def exR (L rI : Ind G) (div : G) (n i : ℕ) : Bool :=
  n < L.nblock && i < rI.nblock && decide (L.dir • L.qn n + rI.dir • rI.qn i = div)

/-- `getBlock` in `Q` and the copy (decomp.cc:1124-1130, 1136-1140). No block: the assertion fails, or a
null pointer is written to. -/
def setQ (qI L : Ind G) (s : Store K) (i n nr nc : ℕ) (f : ℕ → ℕ → K) : Res (Store K) :=
  if exQ qI L i n then putIn s i n (qI.size i * L.size n) nr nc f else .ub

/-- `getBlock` in `R` and the copy (decomp.cc:1144-1149). -/
def setR (L rI : Ind G) (div : G) (s : Store K) (n i nr nc : ℕ) (f : ℕ → ℕ → K) : Res (Store K) :=
  if exR L rI div n i then putIn s n i (L.size n * rI.size i) nr nc f else .ub

/-- The body of the second loop (decomp.cc:1111-1150): `Q`, `R` and `extrab`. -/
def step (ut complete : Bool) (qI rI L : Ind G) (div : G) (srt : List (ℕ × (G × ℕ) × ℕ)) (N b : ℕ)
    (B : Blk K) (F : Fac K) (s : Store K × Store K × ℕ) : Res (Store K × Store K × ℕ) :=
  let n := if ut then (srt.getD b (0, (0, 0), 0)).2.2 else b
  let nr := qI.size B.i1
  let nc := rI.size B.i2
  let Rrows := min F.k nc
  let fill := nr - Rrows
  (setQ qI L s.1 B.i1 n nr Rrows F.Q).bind fun Q =>
  (if ut = true ∧ complete = true ∧ fill > 0 then
      (setQ qI L Q B.i1 (s.2.2 + N) nr fill fun x c => F.Q x (Rrows + c)).map fun Q => (Q, s.2.2 + 1)
    else .ok (Q, s.2.2)).bind fun Qe =>
  (setR L rI div s.2.1 n B.i2 Rrows nc F.R).map fun R => (Qe.1, R, Qe.2)

/-- The second loop (decomp.cc:1111-1150). -/
def loop (ut complete : Bool) (qI rI L : Ind G) (div : G) (srt : List (ℕ × (G × ℕ) × ℕ)) (N : ℕ) :
    List (Blk K × Fac K) → ℕ → Store K × Store K × ℕ → Res (Store K × Store K × ℕ)
  | [], _, s => .ok s
  | p :: ps, b, s => (step ut complete qI rI L div srt N b p.1 p.2 s).bind fun s =>
      loop ut complete qI rI L div srt N ps (b + 1) s

/-- The loop over the sectors without a block (decomp.cc:1153-1169). -/
def zeros [Zero K] [One K] (qI L : Ind G) (N : ℕ) : List ℕ → Store K × ℕ → Res (Store K × ℕ)
  | [], s => .ok s
  | i :: is, s =>
    (setQ qI L s.1 i (s.2 + N) (qI.size i) (qI.size i) fun x c => if x = c then 1 else 0).bind fun Q =>
      zeros qI L N is (Q, s.2 + 1)

/-- `qrImpl` for a tensor with quantum numbers (decomp.cc:1008-1013, 1027-1173): the new index and the
blocks of `Q` and `R`. -/
def qrQN [Zero K] [One K] (qr : Method K) (ut complete : Bool) (qI rI : Ind G) (div : G)
    (bs : List (Blk K)) : Res (Ind G × Store K × Store K) :=
  if complete = false ∧ ut = false then .throw
  else if bs.length = 0 then .throw
  else
    (factors qr complete qI rI bs).bind fun fs =>
      let ps := bs.zip fs
      let L : Ind G := ⟨liq ut complete qI rI ps, qI.dir⟩
      (loop ut complete qI rI L div (indLiq qI rI ps) bs.length ps 0
        (fun _ _ _ => 0, fun _ _ _ => 0, 0)).bind fun s =>
      (if complete then zeros qI L bs.length (zerob qI bs) (s.1, s.2.2) else .ok (s.1, s.2.2)).map
        fun Qe => (L, Qe.1, s.2.1)

end

end Verif.QrQN
