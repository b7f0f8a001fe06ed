import Verif.Model.Py

/-!
`ChangeDir` (helper/file_utils.py:12-34).
-/

namespace Dsrg

/-- Error numbers of the operating system; only `EEXIST` is distinguished. -/
inductive Errno
  | eexist
  | other (n : Nat)
  deriving DecidableEq, Repr

/-- Exceptions that can leave a with-block: the `ValueError` of `ChangeDir`, an `OSError`, and whatever the body raises. -/
inductive WithErr
  | valueError
  | osError (e : Errno)
  | body (tag : Nat)
  deriving DecidableEq, Repr

/-- The system calls used by `ChangeDir`; `W` is the state of the process and the file system. -/
structure SystemCalls (W : Type) where
  getcwd : W → PyStr
  mkdir : PyStr → W → Except Errno Unit × W
  chdir : PyStr → W → Except Errno Unit × W

/-- The attributes of a `ChangeDir` object. -/
structure ChangeDir where
  cwd : PyStr
  dir : PyStr
  deriving DecidableEq, Repr

variable {W α : Type}

/-- `__init__`, file_utils.py:13-18 (a non-string name raises `ValueError`, not represented). -/
def ChangeDir.make (sys : SystemCalls W) (dirName : PyStr) (w : W) : ChangeDir :=
  ⟨sys.getcwd w, sys.getcwd w ++ ['/'] ++ dirName⟩

/-- `os.chdir`, an error becomes an `OSError`. -/
def osChdir (sys : SystemCalls W) (p : PyStr) (w : W) : Except WithErr Unit × W :=
  match sys.chdir p w with
  | (.ok _, w') => (.ok (), w')
  | (.error e, w') => (.error (.osError e), w')

/-- `__enter__`, file_utils.py:20-27. -/
def ChangeDir.enter (sys : SystemCalls W) (self : ChangeDir) (w : W) : Except WithErr Unit × W :=
  match sys.mkdir self.dir w with
  | (.ok _, w') => osChdir sys self.dir w'
  | (.error e, w') => if e ≠ .eexist then (.error .valueError, w') else osChdir sys self.dir w'

/-- `__exit__`, file_utils.py:29-30; it returns `None`, so an exception of the body goes on. -/
def ChangeDir.exit (sys : SystemCalls W) (self : ChangeDir) (w : W) : Except WithErr Unit × W := osChdir sys self.cwd w

/-- `get_cwd`, file_utils.py:32-33. -/
def ChangeDir.getCwd (self : ChangeDir) : PyStr := self.dir

/-- `with obj: body`. -/
def withBlock (sys : SystemCalls W) (self : ChangeDir) (body : W → Except WithErr α × W) (w : W) : Except WithErr α × W :=
  match self.enter sys w with
  | (.error e, w1) => (.error e, w1)
  | (.ok _, w1) =>
    match body w1 with
    | (r, w2) =>
      match self.exit sys w2 with
      | (.ok _, w3) => (r, w3)
      | (.error e, w3) => (.error e, w3)

end Dsrg
