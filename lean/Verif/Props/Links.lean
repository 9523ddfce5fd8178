import Verif.Props.Outside
import Verif.Props.Fields
/-
Symbolic links lead out of the root (C121 is false), also if at first none does: a client can move a relative link.
-/

namespace Ninep.Ufs.Links
open Spec

/-- what a name stands for -/
inductive Ent where
  | dir
  | file (data : Bytes)
  | link (target : GoString)

/-- A file system with symbolic links: absolute paths without links and what they stand for. -/
abbrev Tree := List (GoString × Ent)

/-- path_resolution(7): the place that elements lead to from the place `cur`; the last element is not followed if
`last` is false.  At most so many steps are made. -/
def resolve (w : Tree) (last : Bool) : Nat → List Bytes → List Bytes → Option (List Bytes)
  | 0, _, _ => none
  | _ + 1, cur, [] => some cur
  | n + 1, cur, e :: es =>
    if e = [46] then resolve w last n cur es
    else if e = [46, 46] then resolve w last n cur.dropLast es
    else
      match w.lookup (absPath (cur ++ [e])) with
      | some (.link t) =>
        if es = [] ∧ last = false then some (cur ++ [e])
        else resolve w last n (if t.head? = some 47 then [] else cur) (elems t ++ es)
      | _ => resolve w last n (cur ++ [e]) es

/-- the path without links that a path stands for -/
def find (w : Tree) (last : Bool) (p : GoString) : Option GoString := (resolve w last 40 [] (elems p)).map absPath

def info (p : GoString) (e : Ent) : FileInfo :=
  { name := Mem.base p
    size := match e with
      | .dir => 0
      | .file d => Int64.ofNat d.length
      | .link t => Int64.ofNat t.length
    mode := match e with
      | .dir => ModeDir ||| 0o755
      | .file _ => 0o644
      | .link _ => ModeSymlink ||| 0o777
    modTime := ⟨1000, 0⟩
    sys := some 1 }

def stat (last : Bool) (p : GoString) (w : Tree) : Except GoString FileInfo :=
  match find w last p with
  | none => .error (lit "too many levels of symbolic links")
  | some q =>
    match w.lookup q with
    | none => .error Mem.noent
    | some e => .ok (info p e)

/-- what is put in the place of an entry -/
def put (w : Tree) (p : GoString) (e : Ent) : Tree := w.filter (fun x => x.1 ≠ p) ++ [(p, e)]

/-- Existing files can be looked at, opened, read, written and renamed; all else is refused. -/
def host : Host Tree GoString where
  lstat p w := (w, stat false p w)
  stat p w := (w, stat true p w)
  openFile p _ _ w :=
    match find w true p with
    | none => (w, .error (lit "too many levels of symbolic links"))
    | some q => (w, if (w.lookup q).isSome then .ok q else .error Mem.noent)
  mkdir _ _ w := (w, some (lit "permission denied"))
  chmod _ _ w := (w, some (lit "permission denied"))
  rename p q w :=
    match find w false p, find w false q with
    | some p, some q =>
      match w.lookup p with
      | some e => (put (w.filter fun x => x.1 ≠ p) q e, none)
      | none => (w, some Mem.noent)
    | _, _ => (w, some Mem.noent)
  truncate _ _ w := (w, some (lit "permission denied"))
  chtimes _ _ _ w := (w, some (lit "permission denied"))
  remove _ w := (w, some (lit "permission denied"))
  close _ w := (w, none)
  sync _ w := (w, none)
  seek0 _ w := (w, none)
  readdir1 _ w := (w, .eof)
  readAt h n off w :=
    match w.lookup h with
    | some (.file d) => (w, slice d off.toInt.toNat n, .none)
    | _ => (w, [], .fail (lit "is a directory"))
  writeAt h b off w :=
    match w.lookup h with
    | some (.file d) => (put w h (.file (overlay d off.toInt.toNat b)), b.length, none)
    | _ => (w, 0, some (lit "is a directory"))

/-- No link below "/x" leads out of it: whatever follows a link below "/x" is below "/x" or nowhere. -/
def LinksStay (w : Tree) : Prop :=
  ∀ p, Mem.Under p → (∃ t, w.lookup p = some (.link t)) → ∀ q, find w true p = some q → Mem.Under q

/-- "/x" with the file "s" and the directory "d", in which the link "l" leads to "../s"; and the file "/s" -/
def tree (d : Bytes) : Tree :=
  [([47], .dir), ([47, 120], .dir), ([47, 120, 47, 115], .file [1]), ([47, 120, 47, 100], .dir),
    ([47, 120, 47, 100, 47, 108], .link [46, 46, 47, 115]), ([47, 115], .file d)]

/-- a record that asks for the name "/l" -/
def toTop : Dir := { Mem.noWish with Name := [47, 108] }

/-- attach, walk to "d/l", open it and read; then rename it to "/l", open it again and read -/
def session : List TMsg :=
  [.version ⟨8192, lit "9P2000"⟩, .attach ⟨0, NOFID, [], []⟩, .walk ⟨0, 1, [[100], [108]]⟩, .open_ ⟨1, 0⟩, .read ⟨1, 0, 100⟩,
    .wstat ⟨1, Spec.dir toTop⟩, .open_ ⟨1, 0⟩, .read ⟨1, 0, 100⟩]

/-- the file system after requests -/
def treeAfter : List TMsg → State Tree GoString → Tree
  | [], s => s.world
  | m :: ms, s =>
    match call (ufs host [103]) m s with
    | .panic => s.world
    | .ok s' _ => treeAfter ms s'
    | .err s' _ => treeAfter ms s'

/-- the same up to the rename, then open for writing and write -/
def session' : List TMsg :=
  session.take 6 ++ [.open_ ⟨1, 1⟩, .write ⟨1, 0, [5]⟩]

/-- the contents of a file -/
def contents (w : Tree) (p : GoString) : Option Bytes :=
  match w.lookup p with
  | some (.file d) => some d
  | _ => none

/-- none of the names leads up -/
theorem session_tame (s : State Tree GoString) (m : TMsg) (hm : m ∈ session ++ session') : Tame s m := by
  have hw : Tame s (.walk ⟨0, 1, [[100], [108]]⟩) := by
    intro n hn
    simp only [List.mem_cons, List.not_mem_nil, or_false] at hn
    rcases hn with rfl | rfl
    · unfold NoUp
      decide +kernel
    · unfold NoUp
      decide +kernel
  have hr : Tame s (.wstat ⟨1, Spec.dir toTop⟩) := by
    intro d t b h
    obtain ⟨t', b', e⟩ := (C97_accepted (Spec.dir toTop) toTop).2
      ⟨⟨by decide, by decide, by decide, by decide⟩, .inl ⟨[], by simp [Spec.dir, le]⟩⟩
    rw [e] at h
    cases h
    refine .inr (.inl ⟨rfl, ?_⟩)
    unfold NoUp
    decide +kernel
  simp only [session, session', List.take_succ_cons, List.take_zero, List.cons_append, List.nil_append, List.mem_cons,
    List.not_mem_nil, or_false] at hm
  rcases hm with rfl | rfl | rfl | rfl | rfl | rfl | rfl | rfl | rfl | rfl | rfl | rfl | rfl | rfl | rfl | rfl
  all_goals first
    | exact hw
    | exact hr
    | exact trivial

theorem tree_links {d : Bytes} {p t : GoString} (h : (tree d).lookup p = some (.link t)) : p = [47, 120, 47, 100, 47, 108] := by
  simp only [tree, List.lookup_cons, List.lookup_nil] at h
  repeat' split at h
  all_goals first
    | (cases h; done)
    | (rename_i hp; exact eq_of_beq hp)

theorem tree_find (d : Bytes) : find (tree d) true [47, 120, 47, 100, 47, 108] = some [47, 120, 47, 115] := by
  have e1 : elems [47, 120, 47, 100, 47, 108] = [[120], [100], [108]] := by decide +kernel
  have e2 : elems [46, 46, 47, 115] = [[46, 46], [115]] := by decide +kernel
  simp [find, e1, resolve, tree, absPath, e2, List.lookup]

/-- **C121 is false**: no link leads out of "/x", no name leads up, and yet the client reads the file "/s" outside of
it (so that its answers differ if only this file differs) and writes to it. -/
theorem C121_counterexample : (∀ d, LinksStay (tree d)) ∧
    (∀ (s : State Tree GoString), ∀ m ∈ session ++ session', Tame s m) ∧
    (toldAll host [103] session (newFS [47, 120] (tree [7]))).getLast? = some (some (.ok (.read ⟨[7]⟩))) ∧
    (toldAll host [103] session (newFS [47, 120] (tree [8, 9]))).getLast? = some (some (.ok (.read ⟨[8, 9]⟩))) ∧
    contents (treeAfter session' (newFS [47, 120] (tree [8, 9]))) [47, 115] = some [5, 9] := by
  refine ⟨fun d p hp h q hq => ?_, ?_, by decide +kernel, by decide +kernel, by decide +kernel⟩
  · obtain ⟨t, ht⟩ := h
    rw [tree_links ht, tree_find] at hq
    cases hq
    exact .inr (by decide)
  · exact session_tame

end Ninep.Ufs.Links
