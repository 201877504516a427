import Verif.Model.Str

/-!
# The format of static libraries (ar(5))
-/
namespace Pisi.ArSpec

/-- A member: its header and its data with the padding. -/
structure Member where
  name : Str
  stamp : Str
  uid : Str
  gid : Str
  mode : Str
  size : Str
  data : Str
  deriving DecidableEq

def Member.header (m : Member) : Str :=
  m.name ++ (m.stamp ++ ([' ', ' '] ++ (m.uid ++ (m.gid ++ (m.mode ++ (m.size ++ ['`', '\n']))))))

def magic : Str := ['!', '<', 'a', 'r', 'c', 'h', '>', '\n']

/-- The bytes of a library. -/
def bytes (ms : List Member) : Str := magic ++ ms.flatMap fun m => m.header ++ m.data

/-- The bytes of a field are printable. -/
def Plain (s : Str) : Prop := '\n' ∉ s ∧ '`' ∉ s

/-- The number of bytes a member takes, rounded up. -/
def even (n : Nat) : Nat := n + n % 2

/-- The header is one: the fields have their widths, and the size is the one of the data. -/
structure Member.WF (m : Member) : Prop where
  name : m.name.length = 16 ∧ Plain m.name ∧ '/' ∈ m.name
  stamp : m.stamp.length = 10 ∧ Plain m.stamp
  uid : m.uid.length = 6 ∧ Plain m.uid
  gid : m.gid.length = 6 ∧ Plain m.gid
  mode : m.mode.length = 8 ∧ Plain m.mode
  size : m.size.length = 10 ∧ Plain m.size
  data : ∃ n k, m.size = Nat.toDigits 10 n ++ List.replicate k ' ' ∧ m.data.length = even n

/-- The member with its time stamp set to zero. -/
def Member.zeroed (m : Member) : Member := { m with stamp := List.replicate 10 '0' }

/-- Two libraries differ in time stamps only. -/
def SameButStamps (ms ms' : List Member) : Prop := ms.map Member.zeroed = ms'.map Member.zeroed

end Pisi.ArSpec
