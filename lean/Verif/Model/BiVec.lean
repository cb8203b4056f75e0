import Verif.Model.Matrix

/-!
# Model of the bivectors (`crates/compounds/src/bivec.rs`)

Component arithmetic is taken as total functions; `usize` arithmetic panics or wraps as in Rust.
Allocation failures of `Vec` are not modelled.
-/

namespace Verif.BiVec

/-- `n -= 1` on `usize`. -/
def dec (m : Mode) (P n : Nat) : Res Nat :=
  match n with
  | n + 1 => .ok n
  | 0 => match m with
    | .debug => .panic
    | .release => .ok (2 ^ P - 1)

/-- The loop of `choose_n` (`bivec.rs` L22-34). -/
def chooseLoop (m : Mode) (P : Nat) : (r n out denom : Nat) → Res Nat
  | 0, _, out, denom => if denom = 0 then .panic else .ok (out / denom)
  | r + 1, n, out, denom =>
    (usz m P (out * n)).bind fun out =>
    (usz m P (denom * (r + 1))).bind fun denom =>
    if denom = 0 then .panic
    else if out % denom = 0 then (dec m P n).bind fun n => chooseLoop m P r n (out / denom) 1
    else (dec m P n).bind fun n => chooseLoop m P r n out denom

/-- `choose_n` (`bivec.rs` L15-35). -/
def choose (m : Mode) (P n r : Nat) : Res Nat :=
  if n < r then .ok 0 else chooseLoop m P r n 1 1

variable {α : Type}

/-- One component (`bivec.rs` L51-54). -/
def comp [One α] [Neg α] [Sub α] [Mul α] [Div α] [ZeroTest α] [LT α] [DecidableLT α]
    [PartialCmp α] (a b : List α) (i j : Nat) : Res α :=
  (Res.ofOption a[i]?).bind fun ai => (Res.ofOption b[i]?).bind fun bi =>
  (Res.ofOption a[j]?).bind fun aj => (Res.ofOption b[j]?).bind fun bj =>
  Mat.determinant 2 [[ai, bi], [aj, bj]]

/-- `BiVector::new` (`bivec.rs` L45-63). The constant `COMPS` (L41) is computed by the compiler, where
overflow is an error. -/
def new [One α] [Neg α] [Sub α] [Mul α] [Div α] [ZeroTest α] [LT α] [DecidableLT α]
    [PartialCmp α] (m : Mode) (P D : Nat) (a b : List α) : Res (List α) :=
  (choose m P D 2).bind fun _ =>
  (forUpM D (fun i comps =>
    forUpM (D - (i + 1)) (fun k comps =>
      (comp a b i (i + 1 + k)).bind fun c => .ok (comps ++ [c])) comps) []).bind fun comps =>
  (choose .debug P D 2).bind fun n =>
  if comps.length = n then .ok comps else .panic

end Verif.BiVec
