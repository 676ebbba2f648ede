import Verif.Path.UmaskSpec
/-!
# Model of the permission check (path.c)
-/
set_option autoImplicit false

namespace Yash.Path

/-- What `stat` tells about a file. -/
structure Stat where
  mode : BitVec 32
  uid : Nat
  gid : Nat
  isDir : Bool

/-- The identity of the process: effective user and group, and what `getgroups` gives; an empty list
stands for no groups and for failure. -/
structure Process where
  euid : Nat
  egid : Nat
  groups : List Nat

/-- What `faccessat` or `eaccess` says: the access is allowed; it is refused; the system cannot tell
(`ENOSYS` or `EINVAL`, or the function is not available when yash is compiled). -/
inductive System where
  | allowed | refused | unknown
deriving DecidableEq, Repr

/-- The loop over the supplementary groups (path.c:163-166). -/
def groupLoop (gid : Nat) (bits other : Bool) : List Nat → Bool
  | [] => other
  | g :: gs => if gid = g then bits else groupLoop gid bits other gs

/-- `check_access` (path.c:116-172) on a system with a superuser; `mode` has the bits of one right for
all classes, `st` is `none` if `stat` fails.  The variable `gid` that is compared in the loop holds the
effective group ID. -/
def checkAccess (sys : System) (p : Process) (st : Option Stat) (mode : BitVec 32) : Bool :=
  match sys with
  | .allowed => true
  | .refused => false
  | .unknown =>
    match st with
    | none => false
    | some st =>
      if p.euid = 0 then mode &&& 0o666#32 != 0#32 || st.isDir || st.mode &&& 0o111#32 != 0#32
      else
        let m := st.mode &&& mode
        if p.euid = st.uid then m &&& 0o700#32 != 0#32
        else if p.egid = st.gid then m &&& 0o070#32 != 0#32
        else groupLoop p.egid (m &&& 0o070#32 != 0#32) (m &&& 0o007#32 != 0#32) p.groups

/-- `is_readable`, `is_writable` and `is_executable` (path.c:97-112). -/
def isReadable (sys : System) (p : Process) (st : Option Stat) : Bool := checkAccess sys p st 0o444#32
def isWritable (sys : System) (p : Process) (st : Option Stat) : Bool := checkAccess sys p st 0o222#32
def isExecutable (sys : System) (p : Process) (st : Option Stat) : Bool := checkAccess sys p st 0o111#32

end Yash.Path
