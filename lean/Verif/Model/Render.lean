import Verif.Model.Base

/-!
# Model of the rendering of labels
-/

namespace Verif

/-- libintervalxt/intervalxt/sample/detail/lengths.ipp:175-179: the letter for a digit in base 52.  The addition is one of
`char`, which does not leave the range of ASCII. -/
def letter (offset : ℕ) : Char :=
  if offset < 26 then Char.ofNat ('a'.toNat + offset) else Char.ofNat ('A'.toNat + (offset - 26))

/-- lengths.ipp:173-181: the loop of `render` starting with `current` once `ret` is not empty: it runs as long as `current` is not
zero and appends to `ret`. -/
def renderRest (current : ℕ) : List Char :=
  if h : current = 0 then [] else letter (current % 52) :: renderRest (current / 52)
termination_by current
decreasing_by omega

/-- lengths.ipp:170-183 `Lengths::render`: the first round of the loop is always run because `ret` is empty.  The argument is
`index(label)`, the id of the label. -/
def render (l : Label) : List Char := letter (l % 52) :: renderRest (l / 52)

end Verif
