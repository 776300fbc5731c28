/-
What a path string and a locator name, in a file system without links: a directory is the list of the
names on the way from the root to it.
-/
import Verif.Locators.Model

namespace Verif.Locators

/-- A directory of the file system. -/
abbrev Place := List Str

/-- The pieces of a string between slashes (`"a//b"` has the pieces `a`, the empty string, and `b`). -/
def pieces : Str → List Str
  | [] => [[]]
  | c :: s =>
    if c = '/' then [] :: pieces s
    else
      match pieces s with
      | p :: ps => (c :: p) :: ps
      | [] => [[c]]

/-- Follow one piece, as POSIX says: an empty piece and `.` stay, `..` goes up (the root is above the
    root), any other goes down. -/
def follow (at' : Place) (piece : Str) : Place :=
  if piece = [] ∨ piece = ['.'] then at'
  else if piece = ['.', '.'] then at'.dropLast
  else at' ++ [piece]

/-- Where a string starts: at the root or at the current directory. -/
def origin (cwd : Place) (s : Str) : Place := if s.head? = some '/' then [] else cwd

/-- The directory a string names for a process whose current directory is `cwd`. -/
def posixDir (cwd : Place) (s : Str) : Place := (pieces s).foldl follow (origin cwd s)

/-- The file a string names: its directory and its name there. -/
def posixFile (cwd : Place) (s : Str) : Place × Str :=
  ((pieces s).dropLast.foldl follow (origin cwd s), ((pieces s).getLast?).getD [])

/-- Follow an item of a locator. -/
def walk (at' : Place) : Item → Place
  | .self => at'
  | .parent => at'.dropLast
  | .name s => at' ++ [s]

/-- The directory a locator names. -/
def Dir.place (cwd : Place) (d : Dir) : Place := d.path.foldl walk (if d.relative then cwd else [])

/-- The directory and name of the file a locator names. -/
def File.place (cwd : Place) (f : File) : Place × Str :=
  ((match f.directory with | some d => d.place cwd | none => cwd), fileName f)

/-- A string that can be the name of something in a directory. -/
def Proper (s : Str) : Prop := s ≠ [] ∧ s ≠ ['.'] ∧ s ≠ ['.', '.'] ∧ '/' ∉ s

/-- A path in which `.` and `..` are the items `self` and `parent`, as every locator that is made has. -/
def Canonical (path : List Item) : Prop := ∀ s, Item.name s ∈ path → s ≠ ['.'] ∧ s ≠ ['.', '.']

/-- All names in a path can be names. -/
def ProperPath (path : List Item) : Prop := ∀ s, Item.name s ∈ path → Proper s

/-- A file locator as it is made from a string or a name. -/
structure ProperFile (f : File) : Prop where
  dir : ∀ d ∈ f.directory, ProperPath d.path ∧ (d.relative = true → d.path ≠ []) ∧ isCurrent d = false
  noSlash : '/' ∉ fileName f
  extension : (∀ e ∈ f.extension, '.' ∉ e) ∧ (f.extension = none → '.' ∉ f.base)

/-- Simple paths: up, and then down; `.` only alone. -/
def Simple (path : List Item) (relative : Bool) : Prop :=
  (∃ (n : Nat) (names : List Str), path = List.replicate n .parent ++ names.map .name ∧ (relative = true → path ≠ [])) ∨
  (relative = true ∧ path = [.self])

end Verif.Locators
