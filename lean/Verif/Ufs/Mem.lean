import Verif.Ufs.Host
import Verif.Spec.Ufs
/-
A small host in memory, for examples and counterexamples only: no theorem depends on it.  Paths are
looked up as they are written; there are no symbolic links and no permission checks.
-/

namespace Ninep.Ufs.Mem
open Spec

structure Node where
  dir : Bool := false
  perm : UInt32 := 0o644
  mtime : Time := ⟨1000, 0⟩
  atime : Time := ⟨1000, 0⟩
  data : Bytes := []

structure Opened where
  ino : Nat
  isOpen : Bool := true
  /-- a directory: the entries, and the ones not read yet -/
  listing : List FileInfo := []
  rest : List FileInfo := []

structure World where
  /-- paths and inode numbers -/
  names : List (GoString × Nat)
  nodes : Nat → Node
  /-- the next inode number -/
  next : Nat
  /-- all files ever opened -/
  opened : List Opened

def find (p : GoString) (w : World) : Option Nat := w.names.lookup p

/-- the last element of a path -/
def base (p : GoString) : GoString := (p.reverse.takeWhile (· ≠ 47)).reverse
/-- the path without its last element -/
def parent (p : GoString) : GoString :=
  match ((p.reverse.dropWhile (· ≠ 47)).drop 1).reverse with
  | [] => [47]
  | q => q

def info (p : GoString) (ino : Nat) (w : World) : FileInfo :=
  { name := base p
    size := Int64.ofNat (w.nodes ino).data.length
    mode := ((w.nodes ino).perm &&& 0o777) ||| (if (w.nodes ino).dir then ModeDir else 0)
    modTime := (w.nodes ino).mtime
    sys := some (UInt64.ofNat ino) }

def noent : GoString := lit "no such file or directory"

def stat (p : GoString) (w : World) : Except GoString FileInfo :=
  match find p w with
  | none => .error noent
  | some i => .ok (info p i w)

def list (p : GoString) (w : World) : List FileInfo :=
  (w.names.filter fun x => x.1 ≠ [47] ∧ parent x.1 = p).map fun x => info x.1 x.2 w

def setNode (i : Nat) (f : Node → Node) (w : World) : World :=
  { w with nodes := fun j => if j = i then f (w.nodes i) else w.nodes j }

def addHandle (p : GoString) (i : Nat) (w : World) : World × Except GoString Nat :=
  ({ w with opened := w.opened ++ [{ ino := i, listing := list p w, rest := list p w }] }, .ok w.opened.length)

def addNode (p : GoString) (nd : Node) (w : World) : World :=
  { w with
    names := w.names ++ [(p, w.next)]
    next := w.next + 1
    nodes := fun j => if j = w.next then nd else w.nodes j }

def openFile (p : GoString) (flags : Nat) (perm : UInt32) (w : World) : World × Except GoString Nat :=
  match find p w with
  | some i =>
    if (w.nodes i).dir ∧ flags % 4 ≠ 0 then (w, .error (lit "is a directory"))
    else addHandle p i (if flags / 512 % 2 = 1 then setNode i (fun n => { n with data := [] }) w else w)
  | none =>
    if flags / 64 % 2 = 1 then addHandle p w.next (addNode p { perm := perm } w) else (w, .error noent)

def mkdir (p : GoString) (perm : UInt32) (w : World) : World × Option GoString :=
  match find p w with
  | some _ => (w, some (lit "file exists"))
  | none => (addNode p { dir := true, perm := perm } w, none)

def onNode (p : GoString) (f : Node → Node) (w : World) : World × Option GoString :=
  match find p w with
  | none => (w, some noent)
  | some i => (setNode i f w, none)

def rename (p q : GoString) (w : World) : World × Option GoString :=
  match find p w with
  | none => (w, some noent)
  | some i => ({ w with names := (w.names.filter fun x => x.1 ≠ p ∧ x.1 ≠ q) ++ [(q, i)] }, none)

def resize (n : Nat) (d : Bytes) : Bytes := d.take n ++ List.replicate (n - d.length) 0

def remove (p : GoString) (w : World) : World × Option GoString :=
  match find p w with
  | none => (w, some noent)
  | some _ => ({ w with names := w.names.filter fun x => x.1 ≠ p }, none)

/-- an operation on an open file -/
def onHandle {α : Type} (h : Nat) (w : World) (bad : α) (f : Opened → World × α) : World × α :=
  match w.opened[h]? with
  | some o => if o.isOpen then f o else (w, bad)
  | none => (w, bad)

def setOpened (h : Nat) (o : Opened) (w : World) : World :=
  { w with opened := w.opened.set h o }

def closed : GoString := lit "file already closed"

def host : Host World Nat where
  lstat p w := (w, stat p w)
  stat p w := (w, stat p w)
  openFile := openFile
  mkdir := mkdir
  chmod p m := onNode p fun n => { n with perm := m }
  rename := rename
  truncate p n w :=
    if n.toInt < 0 then (w, some (lit "invalid argument"))
    else onNode p (fun nd => { nd with data := resize n.toInt.toNat nd.data }) w
  chtimes p a m := onNode p fun n => { n with atime := a, mtime := m }
  remove := remove
  close h w := onHandle h w (some closed) fun o => (setOpened h { o with isOpen := false } w, none)
  sync h w := onHandle h w (some closed) fun _ => (w, none)
  seek0 h w := onHandle h w (some closed) fun o => (setOpened h { o with rest := o.listing } w, none)
  readdir1 h w := onHandle h w (.fail closed) fun o =>
    match o.rest with
    | [] => (w, .eof)
    | fi :: r => (setOpened h { o with rest := r } w, .entry fi)
  readAt h n off w := onHandle h w ([], .fail closed) fun o =>
    if off.toInt < 0 then (w, [], .fail (lit "negative offset"))
    else
      let d := slice (w.nodes o.ino).data off.toInt.toNat n
      (w, d, if d.length < n then .eof else .none)
  writeAt h b off w := onHandle h w (0, some closed) fun o =>
    if off.toInt < 0 then (w, 0, some (lit "negative offset"))
    else (setNode o.ino (fun nd => { nd with data := overlay nd.data off.toInt.toNat b }) w, b.length, none)

theorem quiet : host.Quiet := ⟨fun _ _ => rfl, fun _ _ => rfl⟩

/-- a world with the directories "/", "/x", "/x/d" and the files "/x/f" and "/etc" -/
def world0 : World where
  names := [([47], 0), ([47, 120], 1), ([47, 120, 47, 100], 2), ([47, 120, 47, 102], 3), ([47, 101, 116, 99], 4)]
  nodes := fun i => if i = 3 then { data := [1, 2, 3, 4] } else if i = 4 then { data := [9] } else { dir := true, perm := 0o755 }
  next := 5
  opened := []

end Ninep.Ufs.Mem
