import Verif.Model.Locale
import Verif.Spec.Bytes
/-
Specification: locales in which the digits are nothing but digits.
-/
namespace Spec
open Goost

/-- No hexadecimal digit is white space in the locale, or its decimal point, or its separator of thousands, if it groups
digits at all. -/
def DigitsOnly (l : Locale) : Prop := ∀ c, (hexDigit c).isSome → l.space c = false ∧ c ≠ l.point ∧
  (c = l.separator → l.grouping = [])

/-- No hexadecimal digit is white space in the locale. -/
def DigitsNotSpace (l : Locale) : Prop := ∀ c, (hexDigit c).isSome → l.space c = false

/-- A locale like the German one: 1.234.567,89. -/
def german : Locale := ⟨isSpaceC, '.', ',', [3]⟩

/-- A locale that the user has made, with the separator `a`. -/
def odd : Locale := ⟨isSpaceC, 'a', '.', [3]⟩

end Spec
