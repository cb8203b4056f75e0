import Verif.Model.IInt

/-!
# Model of random values (`crates/ints/src/u/rand_impl.rs`, `crates/ints/src/i/rand_impl.rs`)

The generator is given by what it returns: `sample` of a byte array (crate `rand` 0.9) takes for each byte
the low byte of one `next_u32`, `fill` of a byte array is `fill_bytes`.
-/

namespace Verif

/-- `StandardUniform::sample` for `U<N>` (`u/rand_impl.rs` L13-15), `words` being the results of `next_u32`. -/
def UN.sample (words : List (BitVec 32)) : Bytes := words.map fun w => w.setWidth 8

/-- `Fill::fill` for `U<N>` (`u/rand_impl.rs` L7-9), `bytes` being what `fill_bytes` writes. -/
def UN.fill (bytes : List (BitVec 8)) : Bytes := bytes

/-- `StandardUniform::sample` for `I<N>` (`i/rand_impl.rs` L13-15). -/
def IN.sample (words : List (BitVec 32)) : Bytes := words.map fun w => w.setWidth 8

/-- `Fill::fill` for `I<N>` (`i/rand_impl.rs` L7-9). -/
def IN.fill (bytes : List (BitVec 8)) : Bytes := bytes

end Verif
