import Mathlib.Order.Basic
import Mathlib.Order.Lattice

/-! # The order of bytes -/

namespace Verif

/-- `u8` values are ordered by their numeric value. -/
instance : LinearOrder UInt8 where
  le_refl a := by simp
  le_trans a b c := by simp only [UInt8.le_iff_toNat_le]; omega
  le_antisymm a b := by
    simp only [UInt8.le_iff_toNat_le]; intro h1 h2; exact UInt8.toNat.inj (by omega)
  lt_iff_le_not_ge a b := by
    simp only [UInt8.le_iff_toNat_le, UInt8.lt_iff_toNat_lt]; omega
  le_total a b := by simp only [UInt8.le_iff_toNat_le]; omega
  toDecidableLE := inferInstance
  toDecidableEq := inferInstance
  toDecidableLT := inferInstance

end Verif
