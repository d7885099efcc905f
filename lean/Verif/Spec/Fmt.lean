/-!
# Specification: layouts of `Debug` texts
-/
namespace Bongo

/-- The lines of a text (one more than it has line breaks). -/
def linesOf : List Char → List (List Char)
  | [] => [[]]
  | c :: s =>
    if c = '\n' then [] :: linesOf s
    else match linesOf s with
      | [] => [[c]]
      | l :: ls => (c :: l) :: ls

/-- The text with every line indented by four blanks and ended by a line break. -/
def indented (s : List Char) : List Char :=
  (linesOf s).flatMap fun l => [' ', ' ', ' ', ' '] ++ l ++ ['\n']

/-- Items on one line: between brackets, separated by a comma and a blank. -/
def oneLine (opening closing : List Char) (items : List (List Char)) : List Char :=
  opening ++ List.intercalate [',', ' '] items ++ closing

/-- Items on lines of their own: every item, and a comma, indented. -/
def manyLines (opening closing : List Char) (items : List (List Char)) : List Char :=
  opening ++ ['\n'] ++ items.flatMap (fun i => indented (i ++ [','])) ++ closing

end Bongo
