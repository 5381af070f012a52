import Verif.Lemmas.Shoup

/-! # C09: Shoup multiplication -/

namespace Verif
namespace Props
open Shoup

/-- C09: construction succeeds exactly for a value below the modulus, and resetting an existing
factor gives the same factor as building a new one. -/
theorem C09_shoup_new (w v m : Nat) (s : Shoup) :
    (Shoup.new w v m ≠ none ↔ v < m) ∧ Shoup.set w s v m = Shoup.new w v m := by
  unfold Shoup.set setModulus Shoup.new
  constructor <;> split <;> simp_all

/-- C09: the lazy product is congruent to `v*x` and below `2m`, for every word `x`. -/
theorem C09_shoup_mul_lazy (w v m x : Nat) (hm : 2 * m ≤ 2 ^ w) (hx : x < 2 ^ w) (s : Shoup)
    (hs : Shoup.new w v m = some s) :
    ∃ r, mulReduceLazy w s x m = some r ∧ r < 2 * m ∧ r % m = v * x % m := by
  have hv : v < m := ((C09_shoup_new w v m s).1).1 (by simp [hs])
  obtain ⟨k, e, h1, h2⟩ := lazy_eq hm hv hx hs
  exact ⟨_, e, by omega, Barrett.sub_mul_mod_eq h1⟩

/-- C09: the full product is exactly `v*x mod m`, for every word `x`. -/
theorem C09_shoup_mul (w v m x : Nat) (hm : 2 * m ≤ 2 ^ w) (hx : x < 2 ^ w) (s : Shoup)
    (hs : Shoup.new w v m = some s) :
    Shoup.mulReduce w s x m = some (v * x % m) := by
  obtain ⟨r, e, h1, h2⟩ := C09_shoup_mul_lazy w v m x hm hx s hs
  simp only [Shoup.mulReduce, e, Option.bind_eq_bind, Option.bind_some]
  split
  · next h =>
    rw [subC_eq h, ← h2, Nat.mod_eq_sub_mod h, Nat.mod_eq_of_lt (by omega)]
  · next h => rw [← h2, Nat.mod_eq_of_lt (by omega)]; rfl

example : (Shoup.new 8 100 127).bind (fun s => Shoup.mulReduce 8 s 255 127)
    = some (100 * 255 % 127) := by decide

/-- C09: the bound `2m ≤ 2^w` is needed: with the u8 modulus 131 the result is wrong. -/
theorem C09_shoup_mul_needs_headroom :
    ¬ ∀ v m x : Nat, m < 2 ^ 8 → v < m → x < 2 ^ 8 →
      (Shoup.new 8 v m).bind (fun s => Shoup.mulReduce 8 s x m) = some (v * x % m) := by
  intro h
  exact absurd (h 88 131 253 (by decide) (by decide) (by decide)) (by decide)

end Props
end Verif
