import Mathlib.Data.List.Sort
import Mathlib.Data.Int.Order.Basic

/-! # Specification of sorting parity -/

namespace Qosy

/-- The number of inverted pairs of a list: pairs of positions `i < j` with `v[i] > v[j]`. -/
def inversions : List Int → Nat
  | [] => 0
  | x :: xs => xs.countP (fun y => y < x) + inversions xs

end Qosy
