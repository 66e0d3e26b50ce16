import Verif.Spec.Points

/-!
# Specification of the text of an array

As NumPy prints arrays: nested brackets, elements separated by a space, blocks by newlines and the
indentation of the level; long dimensions show their first and last elements around an ellipsis.
Independent of the model.
-/

namespace DDC.Spec.Print

variable {β : Type}

/-- The entries of a dimension that are shown. -/
def shown (threshold edge : Nat) (l : List β) : List β :=
  if l.length < threshold then l else l.take edge ++ l.drop (l.length - edge)

/-- Some texts with `sep` between consecutive ones. -/
def join (sep : List Char) (l : List (List Char)) : List Char := (l.intersperse sep).flatten

/-- The entries `l` of a dimension, entry `x` having the text `f x`; `bare` is the text when no entry
at all is shown around the ellipsis. -/
def row (threshold edge : Nat) (sep bare : List Char) (f : β → List Char) (l : List β) : List Char :=
  if l.length < threshold then join sep (l.map f)
  else if edge = 0 then bare
  else join sep ((l.take edge).map f ++ ["...".toList] ++ (l.drop (l.length - edge)).map f)

/-- Right-justified on `w` characters. -/
def justify (w : Nat) (t : List Char) : List Char := List.replicate (w - t.length) ' ' ++ t

variable {τ : Type}

/-- The text of the array of axes `ax` whose element `e` has the text `f e`, elements taking `w`
characters, at depth `level`. -/
def render (threshold edge w : Nat) : Nat → List (τ × List U64) → (Elem τ → List Char) → List Char
  | _, [], f => f []
  | _, [(t, l)], f => ['['] ++ row threshold edge [' '] "... ".toList (fun x => justify w (f [(t, x)])) l ++ [']']
  | level, (t, l) :: a :: ax, f =>
    let sep := List.replicate (a :: ax).length '\n' ++ List.replicate (level + 1) ' '
    ['['] ++ row threshold edge sep (sep ++ "...".toList ++ sep)
      (fun x => render threshold edge w (level + 1) (a :: ax) (fun e => f ((t, x) :: e))) l ++ [']']

/-- The elements that are shown, in order. -/
def shownElems (threshold edge : Nat) (ax : List (τ × List U64)) : List (Elem τ) :=
  cart (ax.map (fun a => (a.1, shown threshold edge a.2)))

/-- The largest number of a list. -/
def largest (l : List Nat) : Nat := l.foldr max 0

end DDC.Spec.Print
