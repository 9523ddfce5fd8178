import Verif.Server.Dispatch
/-
The host operating system as the file server sees it (package os of the Go standard library, on Unix).
All functions are parameters: nothing is assumed about them here.  `ω` is the state of the world, `H` the
type of open files (`*os.File`).  Every call may change the world, also those that only look: so a call also
stands for whatever other processes do before it.  An error is its text.
-/

namespace Ninep.Ufs

/-- `time.Time` as far as it is used: seconds since 1970 and nanoseconds -/
structure Time where
  sec : Int
  nsec : Nat
deriving DecidableEq, Repr

/-- `time.Unix(int64(t), 0)` for a `uint32` t -/
def unixTime (t : UInt32) : Time := ⟨t.toNat, 0⟩

/-- `t.UnixNano()` -/
def Time.unixNano (t : Time) : Int64 := Int64.ofInt (t.sec * 1000000000 + t.nsec)

/-- `os.FileInfo` -/
structure FileInfo where
  name : GoString
  size : Int64
  /-- `os.FileMode` -/
  mode : UInt32
  modTime : Time
  /-- the inode number if `Sys()` is not nil -/
  sys : Option UInt64
deriving DecidableEq

/-- `os.ModeDir` -/
def ModeDir : UInt32 := 0x80000000
/-- `os.ModeSymlink` -/
def ModeSymlink : UInt32 := 0x08000000

/-- `fi.IsDir()` -/
def FileInfo.isDir (fi : FileInfo) : Bool := fi.mode &&& ModeDir != 0

/-! `os.O_*`, with the values of Linux -/
def O_RDONLY : Nat := 0
def O_WRONLY : Nat := 1
def O_RDWR : Nat := 2
def O_CREATE : Nat := 0x40
def O_TRUNC : Nat := 0x200

/-- the error of a read -/
inductive ReadErr where
  | none
  | eof
  | fail (e : GoString)
deriving DecidableEq

/-- `Readdir(1)` returns one entry, or `io.EOF`, or another error -/
inductive DirRes where
  | entry (fi : FileInfo)
  | eof
  | fail (e : GoString)
deriving DecidableEq

structure Host (ω H : Type) where
  lstat : GoString → ω → ω × Except GoString FileInfo
  stat : GoString → ω → ω × Except GoString FileInfo
  openFile : GoString → Nat → UInt32 → ω → ω × Except GoString H
  mkdir : GoString → UInt32 → ω → ω × Option GoString
  chmod : GoString → UInt32 → ω → ω × Option GoString
  rename : GoString → GoString → ω → ω × Option GoString
  truncate : GoString → Int64 → ω → ω × Option GoString
  /-- path, access time, modification time -/
  chtimes : GoString → Time → Time → ω → ω × Option GoString
  remove : GoString → ω → ω × Option GoString
  close : H → ω → ω × Option GoString
  sync : H → ω → ω × Option GoString
  /-- `Seek(0, io.SeekStart)` -/
  seek0 : H → ω → ω × Option GoString
  readdir1 : H → ω → ω × DirRes
  /-- `ReadAt` into a buffer of the given length: the bytes read and the error -/
  readAt : H → Nat → Int64 → ω → ω × Bytes × ReadErr
  writeAt : H → Bytes → Int64 → ω → ω × Nat × Option GoString

/-- The host of a single process: looking changes nothing.  Assumed only where it is said so. -/
structure Host.Quiet {ω H : Type} (host : Host ω H) : Prop where
  lstat : ∀ p w, (host.lstat p w).1 = w
  stat : ∀ p w, (host.stat p w).1 = w

end Ninep.Ufs
