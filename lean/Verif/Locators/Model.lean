/-
Model of locators for POSIX file systems: /repo/sources/system/locators/utilities.dylan,
/repo/sources/system/locators/locators.dylan and /repo/sources/system/file-system/posix-locators.dylan.

Simplifications: strings are lists of characters, integers are unbounded, and a locator is of the POSIX
classes, so that it has no server.
-/

namespace Verif.Locators

abbrev Str := List Char

/-- An item of a path: `#"self"`, `#"parent"` or a string. -/
inductive Item where
  | self
  | parent
  | name (s : Str)
  deriving DecidableEq

/-- `<posix-directory-locator>` (`posix-locators.dylan:29-31`, `locators.dylan:40-45`). -/
structure Dir where
  path : List Item
  relative : Bool
  deriving DecidableEq

/-- `<posix-file-locator>` (`posix-locators.dylan:116-124`). -/
structure File where
  directory : Option Dir
  base : Str
  extension : Option Str
  deriving DecidableEq

/-- `find-delimiter-from-end` (`utilities.dylan:60-72`): the characters below `k`, from the last. -/
def findFromEnd (s : Str) (d : Char) : Nat → Option Nat
  | 0 => none
  | k + 1 => if s[k]? = some d then some k else findFromEnd s d k

/-- `copy-sequence(string, start: i, end: j)`. -/
def slice (s : Str) (i j : Nat) : Str := (s.drop i).take (j - i)

/-- `canonicalize-path` (`utilities.dylan:91-106`), for a path of strings. -/
def canonicalize (path : List Str) : List Item :=
  path.map fun item => if item = ['.'] then .self else if item = ['.', '.'] then .parent else .name item

/-- `canonicalize-path` for a path of items. -/
def recanonicalize (path : List Item) : List Item :=
  path.map fun item =>
    match item with
    | .name s => if s = ['.'] then .self else if s = ['.', '.'] then .parent else .name s
    | i => i

/-- The loop of `parse-path` (`utilities.dylan:118-128`), `k` characters before the end. -/
def parseLoop (s : Str) : Nat → Nat → Nat → Bool → List Str → Nat × Bool × List Str
  | 0, _, old, rel, path => (old, rel, path)
  | k + 1, pos, old, rel, path =>
    if s[pos]? = some '/' then
      parseLoop s k (pos + 1) (pos + 1) (if pos = 0 then false else rel) (if old < pos then path ++ [slice s old pos] else path)
    else parseLoop s k (pos + 1) old rel path

/-- `parse-path` (`utilities.dylan:108-133`): the path and `relative?`. -/
def parsePath (s : Str) : List Str × Bool :=
  let r := parseLoop s s.length 0 0 true []
  (if r.1 < s.length then r.2.2 ++ [slice s r.1 s.length] else r.2.2, r.2.1)

/-- `item-name` in `path-to-string` (`utilities.dylan:149-156`). -/
def itemName : Item → Str
  | .self => ['.']
  | .parent => ['.', '.']
  | .name s => s

/-- `string[pos] := character; pos := pos + 1`; `none` if it is out of range. -/
def put (r : Option (Str × Nat)) (c : Char) : Option (Str × Nat) :=
  match r with
  | none => none
  | some (s, pos) => if pos < s.length then some (s.set pos c, pos + 1) else none

/-- `path-to-string` (`utilities.dylan:143-176`). -/
def pathToString (path : List Item) (relative : Bool) : Option Str :=
  let size := path.foldl (fun n item => n + (itemName item).length) (path.length + if relative then 0 else 1)
  let start : Option (Str × Nat) := some (List.replicate size ' ', 0)
  let start := if relative then start else put start '/'
  (path.foldl (fun r item => put ((itemName item).foldl put r) '/') start).map (·.1)

/-- The loop of `relative-path` (`utilities.dylan:184-200`), `k` bounds the number of rounds. -/
def relativeLoop (path from' : List Item) : Nat → Nat → List Item
  | 0, _ => []
  | k + 1, i =>
    if i = path.length then List.replicate (from'.length - i) .parent
    else if i = from'.length then path.drop i
    else if path[i]? = from'[i]? then relativeLoop path from' k (i + 1)
    else List.replicate (from'.length - i) .parent ++ path.drop i

/-- `relative-path` (`utilities.dylan:178-201`). -/
def relativePath (path from' : List Item) : List Item := relativeLoop path from' (path.length + 1) 0

/-- One item in `simplify-path` (`utilities.dylan:208-224`); the new path is kept in reverse. -/
def simplifyStep (new : List Item) : Item → List Item
  | .self => new
  | .parent =>
    match new with
    | [] => [.parent]
    | .parent :: _ => .parent :: new
    | _ :: t => t
  | .name s => .name s :: new

/-- `simplify-path` (`utilities.dylan:203-229`). -/
def simplifyPath (path : List Item) (relative : Bool) : List Item :=
  let new := path.foldl simplifyStep []
  let new := if new = [] ∧ relative then [.self] else new
  new.reverse

/-! ### Directory locators -/

/-- `make` with a path (`posix-locators.dylan:33-55`). -/
def makeDir (path : List Item) (relative : Bool) : Dir := ⟨recanonicalize path, relative⟩

/-- `as(<directory-locator>, string)` (`posix-locators.dylan:90-98`). -/
def dirOfString (s : Str) : Dir :=
  let r := parsePath s
  ⟨canonicalize r.1, r.2⟩

/-- `as(<string>, directory)` (`posix-locators.dylan:100-108`). -/
def dirToString (d : Dir) : Option Str := pathToString d.path d.relative

/-- `locator-name` of a directory (`posix-locators.dylan:67-79`).  The result is declared as
    `false-or(<string>)`; an item that is a symbol is an error (`none`). -/
def dirName (d : Dir) : Option (Option Str) :=
  match d.path.getLast? with
  | none => some none
  | some .self => some (some ['.'])
  | some (.name s) => some (some s)
  | some .parent => none

/-- `locator-directory` of a directory (`locators.dylan:149-162`). -/
def dirDirectory (d : Dir) : Option Dir :=
  if d.path.length > (if d.relative then 1 else 0) then some (makeDir (d.path.take (d.path.length - 1)) d.relative) else none

/-- `current-directory-locator?` (`locators.dylan:143-147`). -/
def isCurrent (d : Dir) : Bool := d.relative && d.path == [.self]

/-- `simplify-locator` of a directory (`locators.dylan:180-194`). -/
def simplifyDir (d : Dir) : Dir :=
  let p := simplifyPath d.path d.relative
  if d.path = p then d else makeDir p d.relative

/-- `subdirectory-locator` (`locators.dylan:229-238`), with strings. -/
def subdirectory (d : Dir) (sub : List Str) : Dir := makeDir (d.path ++ sub.map .name) d.relative

/-- `merge-locators` of directories (`locators.dylan:340-352`). -/
def mergeDir (l from' : Dir) : Dir := if l.relative then makeDir (from'.path ++ l.path) from'.relative else l

/-- `relative-locator` of directories (`locators.dylan:272-293`); `none` is the error. -/
def relativeDir (l from' : Dir) : Option Dir :=
  if l.relative = false ∧ from'.relative = true then none
  else if l.path = from'.path then some (makeDir [.self] true)
  else some (makeDir (relativePath l.path from'.path) true)

/-! ### File locators -/

/-- `make` with `base:` and `extension:` (`posix-locators.dylan:126-147`). -/
def makeFile (directory : Option Dir) (base : Str) (extension : Option Str) : File :=
  ⟨directory.filter (fun d => !isCurrent d), base, extension⟩

/-- `make` with `name:` (`posix-locators.dylan:126-147`). -/
def makeFileNamed (directory : Option Dir) (name : Str) : File :=
  match findFromEnd name '.' name.length with
  | some pos => ⟨directory.filter (fun d => !isCurrent d), slice name 0 pos, some (slice name (pos + 1) name.length)⟩
  | none => ⟨directory.filter (fun d => !isCurrent d), name, none⟩

/-- `locator-name` of a file (`posix-locators.dylan:149-161`). -/
def fileName (f : File) : Str :=
  match f.extension with
  | some e => f.base ++ '.' :: e
  | none => f.base

/-- `as(<file-locator>, string)` (`posix-locators.dylan:194-209`). -/
def fileOfString (s : Str) : File :=
  match findFromEnd s '/' s.length with
  | some pos => makeFileNamed (some (dirOfString (slice s 0 (pos + 1)))) (slice s (pos + 1) s.length)
  | none => makeFileNamed none s

/-- `as(<string>, file)` (`posix-locators.dylan:182-192`). -/
def fileToString (f : File) : Option Str :=
  match f.directory with
  | some d => (dirToString d).map (· ++ fileName f)
  | none => some (fileName f)

/-- `locator-relative?` of a file (`locators.dylan:137-141`). -/
def fileRelative (f : File) : Bool :=
  match f.directory with
  | some d => d.relative
  | none => true

/-- `simplify-locator` of a file (`locators.dylan:196-209`). -/
def simplifyFile (f : File) : File :=
  let d := f.directory.map simplifyDir
  if f.directory = d then f else makeFile d f.base f.extension

/-- `file-locator` (`locators.dylan:250-262`): `names` are the names before the last. -/
def fileLocator (d : Dir) (names : List Str) (name : Str) : File :=
  makeFileNamed (some (if names = [] then d else subdirectory d names)) name

/-- `merge-locators` of a file and a directory (`locators.dylan:354-371`). -/
def mergeFile (l : File) (from' : Dir) : File :=
  let merged :=
    match l.directory with
    | some d => mergeDir d from'
    | none => from'
  if some merged = l.directory then l else makeFile (some merged) l.base l.extension

/-- `merge-locators` of a directory and a file (`locators.dylan:373-386`). -/
def mergeDirFile (l : Dir) (from' : File) : File :=
  let d :=
    match from'.directory with
    | some d => mergeDir l d
    | none => l
  makeFile (some d) from'.base from'.extension

/-- `merge-locators` of files (`locators.dylan:388-397`). -/
def mergeFiles (l from' : File) : File :=
  match from'.directory with
  | some d => mergeFile l d
  | none => l

/-- `relative-locator` of a file from a directory (`locators.dylan:295-308`). -/
def relativeFile (l : File) (from' : Dir) : Option File :=
  match l.directory with
  | none => some l
  | some d =>
    match relativeDir d from' with
    | none => none
    | some r => some (if r = d then l else makeFile (some r) l.base l.extension)

end Verif.Locators
