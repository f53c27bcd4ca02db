import Verif.Np

/-!
Model of `Noise.save` (`/repo/qetpy/core/_noise.py` 510-524).  A file system maps file names to their
contents; the directory exists and is writable, and unpickling what was pickled gives the object back.
-/

namespace Verif.NoiseSave
open Verif

/-- A file system holding objects of type `α`. -/
abbrev Files (α : Type) : Type := List Char → Option α

/-- `if path[-1] != '/': path += '/'`; the empty string has no last character.  Lines 520-521. -/
def directory (path : List Char) : Except Err (List Char) :=
  match path.getLast? with
  | none => .error .indexError
  | some c => .ok (if c ≠ '/' then path ++ ['/'] else path)

/-- `self.name.replace(" ", "_")+'.pkl'`.  Line 523. -/
def fileName (name : List Char) : List Char :=
  (name.map fun c => if c = ' ' then '_' else c) ++ ['.', 'p', 'k', 'l']

/-- `save`: the files afterwards.  `name` is None (`none`) unless given to the constructor (lines 213, 251).
The mode `'wb'` replaces a file of that name.  Lines 520-524. -/
def save {α : Type} (fs : Files α) (name : Option (List Char)) (obj : α) (path : List Char) :
    Except Err (Files α) :=
  match directory path with
  | .error e => .error e
  | .ok dir =>
    match name with
    | none => .error .attributeError
    | some name => .ok fun f => if f = dir ++ fileName name then some obj else fs f

end Verif.NoiseSave
