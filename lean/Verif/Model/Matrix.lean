import Mathlib.Order.Defs.LinearOrder
import Verif.Model.Base
import Verif.Model.Vector

/-!
# Model of the matrices (`crates/compounds/src/matrix`)

A static `Matrix<T, ROW, COL>` is the list of its rows, a `DynMatrix` the row-major list of its
entries with the two dimensions. Component arithmetic is taken as total functions; indexing, slicing
and `usize` arithmetic panic as in Rust. `none` in the results of static iterators is undefined
behaviour.
-/

namespace Verif

/-- A result of `usize` arithmetic, with pointers of `P` bits. -/
def usz (m : Mode) (P n : Nat) : Res Nat :=
  if n < 2 ^ P then .ok n
  else match m with
    | .debug => .panic
    | .release => .ok (n % 2 ^ P)

/-- `array::from_fn`, the closure of which may panic. -/
def fromFnM {β : Type} (n : Nat) (f : Nat → Res β) : Res (List β) :=
  forUpM n (fun i acc => (f i).bind fun v => .ok (acc ++ [v])) []

/-! ## `gauss_elim!` -/

/-- The values of an ordered type are all comparable. -/
instance {α : Type} [LinearOrder α] : PartialCmp α := ⟨fun _ _ => true⟩

/-- What `gauss_elim!` uses of a matrix: indexing, assignment to an entry, and `swap_rows`. -/
structure MatOps (M α : Type) where
  get : M → Nat → Nat → Res α
  set : M → Nat → Nat → α → Res M
  swapRows : M → Nat → Nat → Res M

namespace MatOps

variable {M α : Type} (ops : MatOps M α)

/-- `(row..rows).all(|r| self[(r, col)].is_zero())` (`macros.rs` L14), stopping at the first nonzero
entry. The first argument is the number of rows left. -/
def allZero [ZeroTest α] (m : M) (col : Nat) : Nat → Nat → Res Bool
  | 0, _ => .ok true
  | n + 1, r => (ops.get m r col).bind fun v => if ZeroTest.IsZero v then allZero m col n (r + 1) else .ok false

/-- One step of `.enumerate().filter(nonzero).min_by(partial_cmp)` (`macros.rs` L20-23): `min_by` keeps
the earlier one of two equal elements. -/
def keepMin [ZeroTest α] [LT α] [DecidableLT α] (best : Option (Nat × α)) (idx : Nat)
    (v : α) : Option (Nat × α) :=
  if ZeroTest.IsZero v then best
  else match best with
    | none => some (idx, v)
    | some (j, w) => if v < w then some (idx, v) else some (j, w)

/-- Whether `val1.partial_cmp(val2).unwrap()` (`macros.rs` L23) panics: the entry is compared to the
smallest of the nonzero ones before it. -/
def clash [ZeroTest α] [PartialCmp α] (best : Option (Nat × α)) (v : α) : Bool :=
  match best with
  | none => false
  | some (_, w) => decide (¬ ZeroTest.IsZero v) && !PartialCmp.comparable w v

/-- The pivot search (`macros.rs` L20-25): `row` plus the position of the smallest nonzero entry; no
entry panics (`unwrap`). -/
def smallIdx [ZeroTest α] [LT α] [DecidableLT α] [PartialCmp α] (m : M) (col row rows : Nat) : Res Nat :=
  (forUpM (rows - row) (fun idx best =>
    (ops.get m (row + idx) col).bind fun v =>
      if clash best v then .panic else .ok (keepMin best idx v)) none).bind fun best =>
  match best with
  | some (idx, _) => .ok (idx + row)
  | none => .panic

/-- `for c in col..cols { self[(r, c)] = self[(r, c)] - self[(row, c)] * factor }`
(`macros.rs` L37-39). -/
def elimRow [Sub α] [Mul α] (col cols row r : Nat) (factor : α) (m : M) : Res M :=
  forUpM (cols - col) (fun k m =>
    (ops.get m r (col + k)).bind fun a => (ops.get m row (col + k)).bind fun b =>
      ops.set m r (col + k) (a - b * factor)) m

/-- `for r in row+1..rows { … }` (`macros.rs` L35-40). -/
def elimBelow [Sub α] [Mul α] [Div α] (col cols row rows : Nat) (top : α) (m : M) : Res M :=
  forUpM (rows - (row + 1)) (fun k m =>
    (ops.get m (row + 1 + k) col).bind fun v =>
      ops.elimRow col cols row (row + 1 + k) (v / top) m) m

variable [One α] [Neg α] [Sub α] [Mul α] [Div α] [ZeroTest α] [LT α] [DecidableLT α]
  [PartialCmp α]

/-- The state of `gauss_elim`: the matrix, `row` and `factor`. -/
structure GState (M α : Type) where
  m : M
  row : Nat
  factor : α

/-- `if small_idx != row { … }` (`macros.rs` L27-30). -/
def pivot (s : GState M α) (small : Nat) : Res (GState M α) :=
  if small ≠ s.row then
    (ops.swapRows s.m small s.row).bind fun m => .ok ⟨m, s.row, -s.factor⟩
  else .ok s

/-- The body of the loop over the columns (`macros.rs` L11-43). -/
def gaussStep (cols rows col : Nat) (s : GState M α) : Res (GState M α) :=
  (ops.allZero s.m col (rows - s.row) s.row).bind fun z =>
    if z then .ok s
    else
      (ops.smallIdx s.m col s.row rows).bind fun small =>
      (ops.pivot s small).bind fun s =>
      (ops.get s.m s.row col).bind fun top =>
      (ops.elimBelow col cols s.row rows top s.m).bind fun m =>
      .ok ⟨m, s.row + 1, s.factor⟩

/-- `gauss_elim` with the macro parameters `$cols` and `$rows` (`macros.rs` L7-47). -/
def gaussElim (cols rows : Nat) (m : M) : Res (M × α) :=
  (forUpM cols (fun col s => ops.gaussStep cols rows col s) ⟨m, 0, 1⟩).bind fun s =>
    .ok (s.m, s.factor)

end MatOps

/-! ## `Matrix` -/

namespace Mat

open StaticIter

variable {α : Type}

/-- Indexing (`static.rs` L183-195). -/
def get (m : List (List α)) (i j : Nat) : Res α := Res.ofOption (m[i]?.bind (·[j]?))
def set (m : List (List α)) (i j : Nat) (v : α) : Res (List (List α)) :=
  match m[i]? with
  | none => .panic
  | some r => if j < r.length then .ok (m.set i (r.set j v)) else .panic

/-- `Matrix::from_columns`, `from_rows`, `transpose` (`static.rs` L27-41). -/
def fromColumns (R : Nat) (vs : List (List α)) : Option (List (List α)) :=
  (collectArray R (zipAll (vs.map intoIter)) ()).map (·.1)
def fromRows (R : Nat) (vs : List (List α)) : Option (List (List α)) :=
  (collectArray R (map (intoIter vs) fun v w => (v, w)) ()).map (·.1)
def transpose (C : Nat) (m : List (List α)) : Option (List (List α)) :=
  (collectArray C (zipAll (m.map intoIter)) ()).map (·.1)

/-- `Matrix::swap_rows` (`static.rs` L43-45): `swap` of slices. -/
def swapRows (m : List (List α)) (a b : Nat) : Res (List (List α)) :=
  match m[a]?, m[b]? with
  | some x, some y => .ok ((m.set a y).set b x)
  | _, _ => .panic

/-- `Add`, `Sub` (`static.rs` L93-104, L113-125): the rows are combined by `Vect.opVec`, which is the
same pipeline as `map_rows`. -/
def rowsOp (f : α → α → α) (R C : Nat) (a b : List (List α)) : Option (List (List α)) :=
  (collectArray R (map (zip (intoIter a) (intoIter b)) fun p w => (Vect.opVec f C p.1 p.2, w))
    ()).bind fun r => r.1.mapM id
def add [Add α] (R C : Nat) (a b : List (List α)) : Option (List (List α)) := rowsOp (· + ·) R C a b
def sub [Sub α] (R C : Nat) (a b : List (List α)) : Option (List (List α)) := rowsOp (· - ·) R C a b

/-- One entry of the product (`static.rs` L138-142). -/
def mulEntry [Add α] [Mul α] (C : Nat) (a b : List (List α)) (i j : Nat) : Res α :=
  (get a i 0).bind fun x => (get b 0 j).bind fun y =>
    forUpM (C - 1) (fun k out => (get a i (k + 1)).bind fun x => (get b (k + 1) j).bind fun y =>
      .ok (out + x * y)) (x * y)

/-- `Mul` (`static.rs` L135-146). -/
def mul [Add α] [Mul α] (R C C2 : Nat) (a b : List (List α)) : Res (List (List α)) :=
  fromFnM R fun i => fromFnM C2 fun j => mulEntry C a b i j

/-- The closure given to an outer `all` runs an inner one; the world says that no undefined behaviour
occurred in it. -/
def inner (r : Option Bool) (w : Bool) : Bool × Bool :=
  match r with
  | some b => (b, w)
  | none => (false, false)

/-- `Zero` (`static.rs` L149-159). -/
def zero [Zero α] (R C : Nat) : List (List α) :=
  (List.range R).map fun _ => (List.range C).map fun _ => 0
def isZero [ZeroTest α] (R C : Nat) (m : List (List α)) : Option Bool :=
  (all R (refIter m) (fun r w => inner (Vect.isZero C r) w) true).bind fun r =>
    if r.2 then some r.1 else none

/-- `One` (`static.rs` L163-181). -/
def one [Zero α] [One α] (R C : Nat) : List (List α) :=
  (List.range R).map fun i => (List.range C).map fun j => if i = j then 1 else 0
def isOneRow [Zero α] [One α] [DecidableEq α] (C i : Nat) (r : List α) : Option Bool :=
  (all C (enumerate (refIter r)) (fun p w =>
    (if i = p.1 then decide (p.2 = 1) else decide (p.2 = 0), w)) ()).map (·.1)
def isOne [Zero α] [One α] [DecidableEq α] (R C : Nat) (m : List (List α)) : Option Bool :=
  (all R (enumerate (refIter m)) (fun p w => inner (isOneRow C p.1 p.2) w) true).bind fun r =>
    if r.2 then some r.1 else none

/-- `SquareMatrix::diag` (`static.rs` L54-56). -/
def diag (N : Nat) (m : List (List α)) : Res (List α) := fromFnM N fun i => get m i i

def ops : MatOps (List (List α)) α := ⟨get, set, swapRows⟩

variable [One α] [Neg α] [Sub α] [Mul α] [Div α] [ZeroTest α] [LT α] [DecidableLT α]
  [PartialCmp α]

/-- `gauss_elim` and `row_reduce` of `Matrix` (`static.rs` L48-51): the macro is given `ROW` for its
parameter `$cols` and `COL` for `$rows`. -/
def gaussElim (R C : Nat) (m : List (List α)) : Res (List (List α) × α) := ops.gaussElim R C m
def rowReduce (R C : Nat) (m : List (List α)) : Res (List (List α)) :=
  (gaussElim R C m).bind fun r => .ok r.1

/-- `SquareMatrix::determinant` (`static.rs` L60-75). -/
def determinant (N : Nat) (m : List (List α)) : Res α :=
  match N with
  | 1 => get m 0 0
  | 2 =>
    (get m 0 0).bind fun a => (get m 1 1).bind fun d => (get m 1 0).bind fun c =>
      (get m 0 1).bind fun b => .ok (a * d - c * b)
  | _ =>
    (gaussElim N N m).bind fun r => (diag N r.1).bind fun d =>
      (Res.ofOption (Vect.product N d)).bind fun p => .ok (p / r.2)

end Mat

/-! ## `DynMatrix` -/

/-- `struct DynMatrix` (`dynamic.rs` L6-11). -/
structure DynMat (α : Type) where
  data : List α
  rows : Nat
  cols : Nat
deriving DecidableEq, Repr

namespace DynMat

variable {α : Type}

/-- `DynMatrix::new` (`dynamic.rs` L14-26). -/
def new (m : Mode) (P : Nat) (data : List α) (rows cols : Nat) : Res (DynMat α) :=
  (usz m P (rows * cols)).bind fun n => if data.length = n then .ok ⟨data, rows, cols⟩ else .panic

/-- `From<[[T; COL]; ROW]>` (`dynamic.rs` L62-66). -/
def ofArray (m : Mode) (P R C : Nat) (a : List (List α)) : Res (DynMat α) := new m P a.flatten R C

/-- `index.0 * self.cols + index.1` (`dynamic.rs` L72, L78). -/
def offset (m : Mode) (P cols i j : Nat) : Res Nat :=
  (usz m P (i * cols)).bind fun t => usz m P (t + j)

/-- Indexing (`dynamic.rs` L68-80). -/
def get (m : Mode) (P : Nat) (d : DynMat α) (i j : Nat) : Res α :=
  (offset m P d.cols i j).bind fun k => Res.ofOption d.data[k]?
def set (m : Mode) (P : Nat) (d : DynMat α) (i j : Nat) (v : α) : Res (DynMat α) :=
  (offset m P d.cols i j).bind fun k =>
    if k < d.data.length then .ok { d with data := d.data.set k v } else .panic

/-- `swap_with_slice` of `start[lo..hi]` and `end[..n]`, the two halves being put together again
(`dynamic.rs` L51-53). -/
def exchange (start stop : List α) (lo hi n : Nat) : Res (List α) :=
  if lo ≤ hi ∧ hi ≤ start.length ∧ n ≤ stop.length ∧ hi - lo = n then
    .ok (start.take lo ++ stop.take n ++ start.drop hi ++ (start.drop lo).take (hi - lo) ++
      stop.drop n)
  else .panic

/-- `DynMatrix::swap_rows` (`dynamic.rs` L44-54). -/
def swapRows (m : Mode) (P : Nat) (d : DynMat α) (a b : Nat) : Res (DynMat α) :=
  if a = b then .ok d
  else
    let l := min a b
    let r := max a b
    (usz m P (r * d.cols)).bind fun mid =>
      if mid ≤ d.data.length then
        (usz m P (l * d.cols)).bind fun lo => (usz m P (l + 1)).bind fun l1 =>
        (usz m P (l1 * d.cols)).bind fun hi =>
        (exchange (d.data.take mid) (d.data.drop mid) lo hi d.cols).bind fun data =>
          .ok { d with data := data }
      else .panic

def ops (m : Mode) (P : Nat) : MatOps (DynMat α) α := ⟨get m P, set m P, swapRows m P⟩

variable [One α] [Neg α] [Sub α] [Mul α] [Div α] [ZeroTest α] [LT α] [DecidableLT α]
  [PartialCmp α]

/-- `gauss_elim` and `row_reduce` of `DynMatrix` (`dynamic.rs` L57-60), with `self.rows` for `$cols`
and `self.cols` for `$rows`. -/
def gaussElim (m : Mode) (P : Nat) (d : DynMat α) : Res (DynMat α × α) :=
  (ops m P).gaussElim d.rows d.cols d
def rowReduce (m : Mode) (P : Nat) (d : DynMat α) : Res (DynMat α) :=
  (gaussElim m P d).bind fun r => .ok r.1

end DynMat

/-! ## `MatrixRef`, `MatrixMut` -/

/-- A view: the memory of the matrix it points to, and its dimensions (`refs.rs` L26-31, L67-72). -/
structure MatView (α : Type) where
  mem : List α
  rows : Nat
  cols : Nat

namespace MatView

variable {α : Type}

/-- `From<&Matrix>` and `From<&DynMatrix>` (`refs.rs` L54-65, L101-114): the rows of a static matrix
are adjacent in memory. -/
def ofMat (R C : Nat) (m : List (List α)) : MatView α := ⟨m.flatten, R, C⟩
def ofDyn (d : DynMat α) : MatView α := ⟨d.data, d.rows, d.cols⟩

/-- A result, a panic, or `none`: a read outside the memory of the matrix, which is undefined
behaviour. -/
def read (mem : List α) (k : Nat) : Option (Res α) := mem[k]?.map .ok

/-- Indexing of both views (`refs.rs` L11-21). -/
def index (m : Mode) (P : Nat) (v : MatView α) (i j : Nat) : Option (Res α) :=
  if v.rows < i ∨ v.cols < j then some .panic
  else match DynMat.offset m P v.cols i j with
    | .ok k => read v.mem k
    | _ => some .panic

/-- `MatrixMut::index_mut`, followed by an assignment through the reference (`refs.rs` L88-98). -/
def assign (m : Mode) (P : Nat) (v : MatView α) (i j : Nat) (x : α) : Option (Res (List α)) :=
  if i < v.rows ∧ j < v.cols then
    match DynMat.offset m P v.cols i j with
    | .ok k => if k < v.mem.length then some (.ok (v.mem.set k x)) else none
    | _ => some .panic
  else some .panic

end MatView

end Verif
