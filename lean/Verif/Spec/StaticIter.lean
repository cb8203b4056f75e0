import Verif.Model.StaticIter

/-!
# Specification of static iterators

`Pipe` is the syntax of pipelines, `Pipe.elem` what they give at an index: no iterator state, no slots.
-/

namespace Verif

namespace StaticIter

/-- A pipeline of the crate's adapters over arrays, references, ranges and iterators defined by the
user, whose closures act on a shared world. -/
inductive Pipe (W : Type) : Type → Type 1 where
  | array {α : Type} (l : List α) : Pipe W α
  | ref {α : Type} (l : List α) : Pipe W α
  | range : Pipe W Nat
  | custom {α : Type} (g : Nat → W → α × W) : Pipe W α
  | map {α β : Type} (p : Pipe W α) (f : α → W → β × W) : Pipe W β
  | zip {α β : Type} (p : Pipe W α) (q : Pipe W β) : Pipe W (α × β)
  | enumerate {α : Type} (p : Pipe W α) : Pipe W (Nat × α)
  | zipNil {α : Type} : Pipe W (List α)
  | zipCons {α : Type} (p : Pipe W α) (q : Pipe W (List α)) : Pipe W (List α)

namespace Pipe

variable {W : Type}

/-- The iterator the crate builds. -/
def iter {α : Type} : Pipe W α → SIter W α
  | .array l => intoIter l
  | .ref l => refIter l
  | .range => rangeTo
  | .custom g => StaticIter.custom g
  | .map p f => StaticIter.map p.iter f
  | .zip p q => StaticIter.zip p.iter q.iter
  | .enumerate p => StaticIter.enumerate p.iter
  | .zipNil => StaticIter.zipNil
  | .zipCons p q => StaticIter.zipCons p.iter q.iter

/-- All arrays have length `N` (in Rust, by typing). -/
def Sized (N : Nat) {α : Type} : Pipe W α → Prop
  | .array l => l.length = N
  | .ref l => l.length = N
  | .range => True
  | .custom _ => True
  | .map p _ => p.Sized N
  | .zip p q => p.Sized N ∧ q.Sized N
  | .enumerate p => p.Sized N
  | .zipNil => True
  | .zipCons p q => p.Sized N ∧ q.Sized N

/-- The element at index `i` and the effect of computing it (`none`: no such index). -/
def elem {α : Type} : Pipe W α → Nat → W → Option (α × W)
  | .array l, i, w => l[i]?.map fun a => (a, w)
  | .ref l, i, w => l[i]?.map fun a => (a, w)
  | .range, i, w => some (i, w)
  | .custom g, i, w => some (g i w)
  | .map p f, i, w => (p.elem i w).map fun r => f r.1 r.2
  | .zip p q, i, w => (p.elem i w).bind fun x => (q.elem i x.2).map fun y => ((x.1, y.1), y.2)
  | .enumerate p, i, w => (p.elem i w).map fun r => ((i, r.1), r.2)
  | .zipNil, _, w => some ([], w)
  | .zipCons p q, i, w => (p.elem i w).bind fun x => (q.elem i x.2).map fun y => (x.1 :: y.1, y.2)

end Pipe

/-- All elements, computed one after the other. -/
def runAll {W α : Type} (act : Nat → W → Option (α × W)) : List Nat → W → Option (List α × W)
  | [], w => some ([], w)
  | i :: is, w => (act i w).bind fun r => (runAll act is r.2).map fun t => (r.1 :: t.1, t.2)

/-- Whether some element satisfies `f`, not looking beyond the first that does. -/
def runAny {W α : Type} (act : Nat → W → Option (α × W)) (f : α → W → Bool × W) :
    List Nat → W → Option (Bool × W)
  | [], w => some (false, w)
  | i :: is, w => (act i w).bind fun r =>
    if (f r.1 r.2).1 then some (true, (f r.1 r.2).2) else runAny act f is (f r.1 r.2).2

/-- The collections of the crate, by nesting: `T` are the elements fed to it, `X` those stored in the
array inside, `O` the collection. -/
inductive Shape : Type → Type → Type → Type 1 where
  | array (T : Type) : Shape T T (List T)
  | option {T X O : Type} (s : Shape T X O) : Shape (Option T) X (Option O)
  | result {T X O : Type} (E : Type) (s : Shape T X O) : Shape (Except E T) X (Except E O)

namespace Shape

/-- The implementation of the crate. -/
def coll (N : Nat) {T X O : Type} : Shape T X O → Coll T O
  | .array T => arrayColl T N
  | .option s => optionColl (s.coll N)
  | .result E s => resultColl E (s.coll N)

/-- The buffer, whatever the nesting: the slots of the array inside. -/
def buf (N : Nat) {T X O : Type} : (sh : Shape T X O) → (sh.coll N).Uninit → List (Option X)
  | .array _, u => u
  | .option s, u => s.buf N u
  | .result _ s, u => s.buf N u

/-- An element is either stored, or decides the whole result. -/
def cls {T X O : Type} : Shape T X O → T → X ⊕ O
  | .array _, v => .inl v
  | .option _, none => .inr none
  | .option s, some v => match s.cls v with
    | .inl x => .inl x
    | .inr o => .inr (some o)
  | .result _ _, .error e => .inr (.error e)
  | .result _ s, .ok v => match s.cls v with
    | .inl x => .inl x
    | .inr o => .inr (.ok o)

/-- The collection holding the elements `l`. -/
def done {T X O : Type} : Shape T X O → List X → O
  | .array _, l => l
  | .option s, l => some (s.done l)
  | .result _ s, l => .ok (s.done l)

/-- Store elements until one decides the result. -/
def gather {W T X O : Type} (sh : Shape T X O) (act : Nat → W → Option (T × W)) :
    List Nat → List X → W → Option (O × W)
  | [], xs, w => some (sh.done xs, w)
  | i :: is, xs, w => (act i w).bind fun r =>
    match sh.cls r.1 with
    | .inl x => gather sh act is (xs ++ [x]) r.2
    | .inr o => some (o, r.2)

end Shape

end StaticIter

end Verif
