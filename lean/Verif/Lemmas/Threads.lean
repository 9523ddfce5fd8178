import Verif.Ufs.Threads
import Verif.Lemmas.Prog
import Verif.Lemmas.Codes
/-
Programs and the calls they make.  A host that reads its answers from a list.
-/

namespace Ninep.Ufs

section
variable {ω H : Type}

/-- the program `p` has made the calls `tr`, got the answers in it, and is now `q` -/
inductive Prog.Path {α : Type} : Prog H α → List (Ev H) → Prog H α → Prop
  | nil {p} : Path p [] p
  | cons {c k a tr q} : Path (k a) tr q → Path (.call c k) (⟨c, a⟩ :: tr) q

theorem Prog.Path.snoc {α : Type} {p : Prog H α} {tr : List (Ev H)} {c : HCall H} {k : c.Ans → Prog H α}
    (h : Prog.Path p tr (.call c k)) (a : c.Ans) : Prog.Path p (tr ++ [⟨c, a⟩]) (k a) := by
  generalize hq : Prog.call c k = q at h
  induction h with
  | nil => subst hq; exact .cons .nil
  | cons _ ih => exact .cons (ih hq)

/-- what a call of the scripted host finds if the script does not have the call -/
def HCall.noAns : (c : HCall H) → c.Ans
  | .lstat _ => .error []
  | .stat _ => .error []
  | .openFile _ _ _ => .error []
  | .readdir1 _ => .eof
  | .readAt _ _ _ => ([], .none)
  | .writeAt _ _ _ => (0, none)
  | .mkdir _ _ => none
  | .chmod _ _ => none
  | .rename _ _ => none
  | .truncate _ _ => none
  | .chtimes _ _ _ => none
  | .remove _ => none
  | .close _ => none
  | .sync _ => none
  | .seek0 _ => none

/-- the world of the scripted host: the answers it will give and the calls made so far -/
structure Script (H : Type) where
  todo : List (Ev H)
  done : List (Ev H) := []

open Classical in
/-- the call and the answer that come next in the script; a call that the script does not have is recorded too -/
noncomputable def Script.ans (c : HCall H) (w : Script H) : Script H × c.Ans :=
  match w.todo with
  | [] => (⟨[], w.done ++ [⟨c, c.noAns⟩]⟩, c.noAns)
  | e :: rest => if h : e.1 = c then (⟨rest, w.done ++ [e]⟩, h ▸ e.2) else (⟨w.todo, w.done ++ [⟨c, c.noAns⟩]⟩, c.noAns)

/-- a host that answers what the script says -/
noncomputable def scripted (H : Type) : Host (Script H) H where
  lstat p := Script.ans (.lstat p)
  stat p := Script.ans (.stat p)
  openFile p f m := Script.ans (.openFile p f m)
  mkdir p m := Script.ans (.mkdir p m)
  chmod p m := Script.ans (.chmod p m)
  rename p q := Script.ans (.rename p q)
  truncate p n := Script.ans (.truncate p n)
  chtimes p a m := Script.ans (.chtimes p a m)
  remove p := Script.ans (.remove p)
  close h := Script.ans (.close h)
  sync h := Script.ans (.sync h)
  seek0 h := Script.ans (.seek0 h)
  readdir1 h := Script.ans (.readdir1 h)
  readAt h n o := Script.ans (.readAt h n o)
  writeAt h b o := Script.ans (.writeAt h b o)

theorem scripted_exec (c : HCall H) (w : Script H) : (scripted H).exec c w = Script.ans c w := by cases c <;> rfl

theorem Script.ans_next (e : Ev H) (rest done : List (Ev H)) :
    Script.ans e.1 ⟨e :: rest, done⟩ = (⟨rest, done ++ [e]⟩, e.2) := by
  unfold Script.ans
  simp

/-- the program gets the same answers from the scripted host -/
theorem Prog.Path.replay {α : Type} {p : Prog H α} {tr : List (Ev H)} {q : Prog H α} (h : Prog.Path p tr q)
    {r : α} (hq : q = .ret r) (rest done : List (Ev H)) :
    p.run (scripted H) ⟨tr ++ rest, done⟩ = some (⟨rest, done ++ tr⟩, r) := by
  induction h generalizing done with
  | nil => subst hq; simp [Prog.run]
  | @cons c k a tr q _ ih =>
    simp only [Prog.run, List.cons_append, scripted_exec]
    rw [show Script.ans c ⟨⟨c, a⟩ :: (tr ++ rest), done⟩ = (⟨tr ++ rest, done ++ [⟨c, a⟩]⟩, a) from Script.ans_next ⟨c, a⟩ _ _]
    dsimp only
    rw [ih hq]
    simp

/-- the same for a program that panics -/
theorem Prog.Path.replay_panic {α : Type} {p : Prog H α} {tr : List (Ev H)} {q : Prog H α} (h : Prog.Path p tr q)
    (hq : q = .panic) (done : List (Ev H)) : p.run (scripted H) ⟨tr, done⟩ = none := by
  induction h generalizing done with
  | nil => subst hq; rfl
  | @cons c k a tr q _ ih =>
    simp only [Prog.run, scripted_exec]
    rw [show Script.ans c ⟨⟨c, a⟩ :: tr, done⟩ = (⟨tr, done ++ [⟨c, a⟩]⟩, a) from Script.ans_next ⟨c, a⟩ _ _]
    exact ih hq _

/-! ### How many calls a request makes -/

/-- no run of the program makes more than `n` calls -/
def Prog.AtMost {α : Type} (p : Prog H α) (n : Nat) : Prop := ∀ tr q, p.Path tr q → tr.length ≤ n

theorem Prog.AtMost.mono {α : Type} {p : Prog H α} {m n : Nat} (h : p.AtMost m) (hmn : m ≤ n) : p.AtMost n :=
  fun tr q hp => Nat.le_trans (h tr q hp) hmn

theorem atMost_ret {α : Type} (a : α) (n : Nat) : (Prog.ret a : Prog H α).AtMost n := by
  intro tr q h; cases h; exact Nat.zero_le _

theorem atMost_panic {α : Type} (n : Nat) : (Prog.panic : Prog H α).AtMost n := by
  intro tr q h; cases h; exact Nat.zero_le _

theorem atMost_call {α : Type} {c : HCall H} {k : c.Ans → Prog H α} {n : Nat} (h : ∀ a, (k a).AtMost n) :
    (Prog.call c k).AtMost (n + 1) := by
  intro tr q hp
  cases hp with
  | nil => exact Nat.zero_le _
  | cons hp => exact Nat.succ_le_succ (h _ _ _ hp)

theorem atMost_call_inv {α : Type} {c : HCall H} {k : c.Ans → Prog H α} {n : Nat} (h : (Prog.call c k).AtMost n) (a : c.Ans) :
    ∃ m, n = m + 1 ∧ (k a).AtMost m := by
  have h1 := h _ _ (.cons (a := a) .nil)
  cases n with
  | zero => simp at h1
  | succ m => exact ⟨m, rfl, fun tr q hp => by simpa using h _ _ (.cons hp)⟩

theorem atMost_bind {α β : Type} {p : Prog H α} {f : α → Prog H β} {m n : Nat} (hp : p.AtMost m) (hf : ∀ a, (f a).AtMost n) :
    (p.bind f).AtMost (m + n) := by
  induction p generalizing m with
  | ret a => exact (hf a).mono (Nat.le_add_left _ _)
  | panic => exact atMost_panic _
  | call c k ih =>
    intro tr q h
    unfold Prog.bind at h
    cases h with
    | nil => exact Nat.zero_le _
    | cons h =>
      obtain ⟨m', rfl, hm⟩ := atMost_call_inv hp _
      have := ih _ hm _ _ h
      simp only [List.length_cons]
      omega

variable (user : GoString)

theorem atMost_version (m : MaxSize) (v : GoString) (o : Obj H) : (pversion m v o).AtMost 0 := by
  unfold pversion
  split <;> exact atMost_ret _ _

theorem atMost_attach (fid afid : FID) (u a : GoString) (o : Obj H) : (pattach fid afid u a o).AtMost 1 := by
  unfold pattach
  split
  · exact atMost_ret _ _
  · refine atMost_call fun r => ?_
    cases r <;> exact atMost_ret _ _

theorem atMost_walkLoop (p : GoString) (ns : List GoString) : (pwalkLoop (H := H) p ns).AtMost ns.length := by
  induction ns generalizing p with
  | nil => exact atMost_ret _ _
  | cons n ns ih =>
    refine atMost_call fun r => ?_
    cases r with
    | error e => exact atMost_ret _ _
    | ok st => exact atMost_bind (n := 0) (ih _) fun a => atMost_ret _ _

theorem atMost_walk (fid newfid : FID) (ns : List GoString) (o : Obj H) : (pwalk fid newfid ns o).AtMost ns.length := by
  unfold pwalk
  cases o.files fid with
  | none => exact atMost_ret _ _
  | some f =>
    dsimp only
    split
    · cases o.files newfid <;> exact atMost_ret _ _
    · refine atMost_bind (n := 0) (atMost_walkLoop _ _) fun r => ?_
      obtain ⟨q, r⟩ := r
      cases r with
      | none => dsimp only; split <;> exact atMost_ret _ _
      | some p => dsimp only; split <;> exact atMost_ret _ _

theorem atMost_open (fid : FID) (m : Mode) (o : Obj H) : (popen fid m o).AtMost 1 := by
  unfold popen
  cases o.files fid with
  | none => exact atMost_ret _ _
  | some f =>
    refine atMost_call fun r => ?_
    cases r <;> exact atMost_ret _ _

theorem atMost_create (fid : FID) (n : GoString) (pm : Perm) (m : Mode) (o : Obj H) : (pcreate fid n pm m o).AtMost 2 := by
  unfold pcreate
  cases o.files fid with
  | none => exact atMost_ret _ _
  | some f =>
    dsimp only
    split
    · exact atMost_ret _ _
    · split
      · refine atMost_call fun _ => atMost_call fun r => ?_
        cases r <;> exact atMost_ret _ _
      · refine atMost_call fun r => ?_
        cases r with
        | error e => exact atMost_ret _ _
        | ok h =>
          refine atMost_call fun r => ?_
          cases r <;> exact atMost_ret _ _

theorem atMost_clunkFile (fid : FID) (o : Obj H) (f : File H) : (pclunkFile fid o f).AtMost 1 := by
  unfold pclunkFile
  cases f.file with
  | none => exact atMost_ret _ _
  | some h => exact atMost_call fun _ => atMost_ret _ _

theorem atMost_clunk (fid : FID) (o : Obj H) : (pclunk fid o).AtMost 1 := by
  unfold pclunk
  cases o.files fid with
  | none => exact atMost_ret _ _
  | some f => exact atMost_bind (n := 0) (atMost_clunkFile _ _ _) fun _ => atMost_ret _ _

theorem atMost_remove (fid : FID) (o : Obj H) : (premove fid o).AtMost 2 := by
  unfold premove
  cases o.files fid with
  | none => exact atMost_ret _ _
  | some f =>
    refine atMost_bind (atMost_clunkFile _ _ _) fun o => atMost_call (n := 0) fun r => ?_
    cases r <;> exact atMost_ret _ _

theorem atMost_stat (fid : FID) (o : Obj H) : (pstat user fid o).AtMost 1 := by
  unfold pstat
  cases o.files fid with
  | none => exact atMost_ret _ _
  | some f =>
    refine atMost_call fun r => ?_
    cases r <;> exact atMost_ret _ _

theorem atMost_readDir (fid : FID) (f : File H) (h : H) (c : Count) (o : Obj H) : (preadDir user fid f h c o).AtMost 1 := by
  unfold preadDir
  dsimp only
  split
  · exact atMost_ret _ _
  · refine atMost_call fun r => ?_
    cases r with
    | entry st => dsimp only; split <;> exact atMost_ret _ _
    | _ => exact atMost_ret _ _

theorem atMost_read (fid : FID) (off : Offset) (c : Count) (o : Obj H) : (pread user fid off c o).AtMost 2 := by
  unfold pread
  cases o.files fid with
  | none => exact atMost_ret _ _
  | some f =>
    dsimp only
    cases f.file with
    | none => exact atMost_ret _ _
    | some h =>
      dsimp only
      split
      · split
        · refine atMost_call fun r => ?_
          cases r with
          | none => exact atMost_readDir _ _ _ _ _ _
          | some e => exact atMost_ret _ _
        · exact (atMost_readDir _ _ _ _ _ _).mono (by omega)
      · split
        · exact atMost_panic _
        · refine atMost_call (n := 1) fun r => ?_
          obtain ⟨d, r⟩ := r
          cases r <;> exact atMost_ret _ _

theorem atMost_write (fid : FID) (off : Offset) (b : Bytes) (o : Obj H) : (pwrite fid off b o).AtMost 1 := by
  unfold pwrite
  cases o.files fid with
  | none => exact atMost_ret _ _
  | some f =>
    dsimp only
    cases f.file with
    | none => exact atMost_ret _ _
    | some h =>
      refine atMost_call fun r => ?_
      obtain ⟨d, r⟩ := r
      cases r <;> exact atMost_ret _ _

theorem atMost_andThen {p : Prog H (Obj H × Option GoString)} {k : Obj H → Prog H (Obj H × Option GoString)} {m n : Nat}
    (hp : p.AtMost m) (hk : ∀ o, (k o).AtMost n) : (pAndThen p k).AtMost (m + n) := by
  unfold pAndThen
  refine atMost_bind hp fun r => ?_
  obtain ⟨o, e⟩ := r
  cases e with
  | none => exact hk o
  | some e => exact atMost_ret _ _

/-- how many calls wstat needs for its parts -/
def wstatCalls (d : Dir) : Nat :=
  (if d.Mode ≠ 0xFFFFFFFF then 1 else 0) + (if d.Name ≠ [] then 2 else 0) + (if d.Length ≠ 0xFFFFFFFFFFFFFFFF then 1 else 0) +
    (if d.Mtime ≠ 0xFFFFFFFF ∨ d.Atime ≠ 0xFFFFFFFF then 2 else 0) + (if wstatChanges d then 0 else 1)

theorem wstatCalls_le (d : Dir) : wstatCalls d ≤ 6 := by
  unfold wstatCalls
  by_cases h : wstatChanges d = true
  · rw [if_pos h]
    have key : ∀ (p : Prop) [Decidable p] (n : Nat), (if p then n else 0) ≤ n := by
      intro p _ n; split <;> omega
    have h1 := key (d.Mode ≠ 0xFFFFFFFF) 1
    have h2 := key (d.Name ≠ []) 2
    have h3 := key (d.Length ≠ 0xFFFFFFFFFFFFFFFF) 1
    have h4 := key (d.Mtime ≠ 0xFFFFFFFF ∨ d.Atime ≠ 0xFFFFFFFF) 2
    omega
  · rw [if_neg h]
    have h' := h
    simp only [wstatChanges, decide_eq_true_eq, not_or] at h'
    obtain ⟨h1, h2, h3, h4, h5⟩ := h'
    rw [if_neg h1, if_neg h2, if_neg h3, if_neg (by simp [not_or]; exact ⟨by simpa using h4, by simpa using h5⟩)]
    omega

theorem atMost_wstatOf (fid : FID) (b : Bytes) (o : Obj H) (n : Nat)
    (hd : ∀ d t b1, unmarshaldir (Buffer.ofBytes b) = .done d t none b1 → wstatCalls d ≤ n) : (pwstat fid b o).AtMost n := by
  unfold pwstat
  cases o.files fid with
  | none => exact atMost_ret _ _
  | some f =>
    dsimp only
    cases hu : unmarshaldir (Buffer.ofBytes b) with
    | panic => exact atMost_panic _
    | done d t e b1 =>
      cases e with
      | some e => exact atMost_ret _ _
      | none =>
        dsimp only
        have h1 : ∀ o, (pwstatMode f d o).AtMost (if d.Mode ≠ 0xFFFFFFFF then 1 else 0) := by
          intro o; unfold pwstatMode; split
          · exact atMost_call fun _ => atMost_ret _ _
          · exact atMost_ret _ _
        have h2 : ∀ o : Obj H, (pwstatUser d o).AtMost 0 := by
          intro o; unfold pwstatUser; split <;> exact atMost_ret _ _
        have h3 : ∀ o, (pwstatName fid f d o).AtMost (if d.Name ≠ [] then 2 else 0) := by
          intro o; unfold pwstatName; split
          · refine atMost_call fun r => ?_
            split
            · exact atMost_ret _ _
            · refine atMost_call fun r => ?_
              cases r <;> exact atMost_ret _ _
          · exact atMost_ret _ _
        have h4 : ∀ (p : GoString) (o : Obj H), (pwstatLength p d o).AtMost (if d.Length ≠ 0xFFFFFFFFFFFFFFFF then 1 else 0) := by
          intro p o; unfold pwstatLength; split
          · exact atMost_call fun _ => atMost_ret _ _
          · exact atMost_ret _ _
        have h5 : ∀ (p : GoString) (o : Obj H), (pwstatTimes p d o).AtMost (if d.Mtime ≠ 0xFFFFFFFF ∨ d.Atime ≠ 0xFFFFFFFF then 2 else 0) := by
          intro p o; unfold pwstatTimes; split
          · split
            · refine atMost_call fun r => ?_
              cases r with
              | error e => exact atMost_ret _ _
              | ok st => exact atMost_call fun _ => atMost_ret _ _
            · exact atMost_call fun _ => atMost_ret _ _
          · exact atMost_ret _ _
        have h6 : ∀ o, (pwstatSync f d o).AtMost (if wstatChanges d then 0 else 1) := by
          intro o; unfold pwstatSync
          cases f.file with
          | none => exact atMost_ret _ _
          | some h =>
            dsimp only
            split
            · exact atMost_ret _ _
            · exact atMost_call fun _ => atMost_ret _ _
        refine (atMost_bind (m := wstatCalls d) (n := 0) ?_ ?_).mono (hd d t b1 hu)
        · refine (atMost_andThen (h1 o) fun o1 => atMost_andThen (h2 o1) fun o2 => atMost_andThen (h3 o2) fun o3 =>
            atMost_andThen (h4 (wstatPath f d o) o3) fun o4 => atMost_andThen (h5 (wstatPath f d o) o4) fun o5 => h6 o5).mono ?_
          unfold wstatCalls
          omega
        · intro r
          obtain ⟨o, e⟩ := r
          cases e <;> exact atMost_ret _ _

theorem atMost_wstat (fid : FID) (b : Bytes) (o : Obj H) : (pwstat fid b o).AtMost 6 :=
  atMost_wstatOf fid b o 6 fun d _ _ _ => wstatCalls_le d

theorem atMost_srv {P Q : Type} (dec : Buffer → Unm P) (met : P → Obj H → Met H Q) (enc : Buffer → Tag → Q → Buffer)
    (o : Obj H) (v : Bool) (b : Buffer) (n : Nat) (h : ∀ p t e b', dec b = .done p t e b' → (met p o).AtMost n) :
    (psrv dec met enc o v b).AtMost n := by
  unfold psrv
  cases hd : dec b with
  | panic => exact atMost_panic _
  | done p t e b' =>
    refine atMost_bind (n := 0) (h p t e b' hd) fun r => ?_
    obtain ⟨o, r⟩ := r
    cases r <;> exact atMost_ret _ _

/-- the names in a Twalk packet -/
def walkNames (b : Buffer) : List GoString :=
  match unmarshalTwalk b with
  | .panic => []
  | .done p _ _ _ => p.Paths

open Dec in
/-- the decoder keeps a property of the results -/
def Keeps {R α : Type} (I : R → Prop) (m : Dec R α) : Prop :=
  ∀ s, I s.r → match m s with
    | .ok _ s' => I s'.r
    | .ret _ s' => I s'.r
    | .panic => True

section
open Dec
variable {R α β : Type} {I : R → Prop}

theorem keeps_bind {m : Dec R α} {f : α → Dec R β} (hm : Keeps I m) (hf : ∀ a, Keeps I (f a)) : Keeps I (m >>= f) := by
  intro s hs
  have h := hm s hs
  show match Dec.bind m f s with | .ok _ s' => I s'.r | .ret _ s' => I s'.r | .panic => True
  unfold Dec.bind
  cases hx : m s with
  | ok a s' => rw [hx] at h; exact hf a s' h
  | ret e s' => rw [hx] at h; exact h
  | panic => trivial

theorem keeps_readU (n : Nat) (e : DecErr) : Keeps I (readU (R := R) n e) := by
  intro s hs
  unfold readU
  cases h : s.b.read n with
  | mk o b => cases o <;> exact hs

theorem keeps_setT (t : Tag) : Keeps I (setT (R := R) t) := fun _ hs => hs

theorem keeps_setR {f : R → R} (h : ∀ r, I r → I (f r)) : Keeps I (setR f) := fun s hs => h s.r hs

theorem keeps_getTag : Keeps I (getTag (R := R)) := keeps_bind (keeps_readU _ _) fun _ => keeps_setT _

theorem keeps_getU32 {set : UInt32 → R → R} (h : ∀ v r, I r → I (set v r)) : Keeps I (getU32 set) :=
  keeps_bind (keeps_readU _ _) fun _ => keeps_setR (h _)

theorem keeps_getString {set : GoString → R → R} (h : ∀ v r, I r → I (set v r)) : Keeps I (getString set) := by
  refine keeps_bind (keeps_readU _ _) fun _ => ?_
  intro s hs
  unfold takeString
  split
  · rename_i heq; split at heq <;> cases heq; exact h _ _ hs
  · rename_i heq; split at heq <;> cases heq; exact hs
  · trivial

theorem keeps_forRange {body : Nat → Dec R Unit} (h : ∀ i, Keeps I (body i)) (k i : Nat) : Keeps I (forRange body k i) := by
  induction k generalizing i with
  | zero => exact fun _ hs => hs
  | succ k ih => exact keeps_bind (h i) fun _ => ih _

theorem keeps_finish : Keeps I (finish (R := R)) := by
  intro s hs
  unfold finish
  split
  · rename_i heq; split at heq <;> cases heq; exact hs
  · rename_i heq; split at heq <;> cases heq; exact hs
  · trivial

theorem keeps_run {m : Dec R Unit} (h : Keeps I m) {zero : R} (h0 : I zero) {b : Buffer} {r : R} {t : Tag} {e : Option DecErr}
    {b' : Buffer} (hr : Dec.run m zero b = .done r t e b') : I r := by
  unfold Dec.run at hr
  have := h { b := b, u := fun _ => 0, t := 0, r := zero } h0
  split at hr
  · rename_i heq; rw [heq] at this; cases hr; exact this
  · rename_i heq; rw [heq] at this; cases hr; exact this
  · cases hr

end

theorem walkNames_length (b : Buffer) : (walkNames b).length ≤ 65535 := by
  unfold walkNames
  cases hd : unmarshalTwalk b with
  | panic => simp
  | done p t e b' =>
    refine keeps_run (I := fun r : TwalkPkt => r.Paths.length ≤ 65535) ?_ (by decide) hd
    refine keeps_bind keeps_getTag fun _ => keeps_bind (keeps_getU32 fun _ _ h => h) fun _ => keeps_bind (keeps_getU32 fun _ _ h => h) fun _ =>
      keeps_bind ?_ fun _ => keeps_finish
    refine keeps_bind (keeps_readU _ _) fun u => keeps_bind (keeps_setR fun r _ => ?_) fun _ => keeps_forRange (fun i => keeps_getString fun v r h => ?_) _ _
    · have := len16_lt u
      simp only [List.length_replicate]
      omega
    · simpa using h

theorem atMost_dispatchTable (o : Obj H) (v : Bool) (b : Buffer) (t : MType) :
    (pdispatchTable user o v b t).AtMost (if t = MT.Twalk then (walkNames b).length else 6) := by
  unfold pdispatchTable
  by_cases h : t = MT.Tversion
  · rw [if_pos h]; subst h
    exact atMost_srv _ _ _ _ _ _ _ fun p _ _ _ _ => (atMost_version _ _ o).mono (Nat.zero_le _)
  rw [if_neg h]; clear h
  by_cases h : t = MT.Tattach
  · rw [if_pos h]; subst h
    exact atMost_srv _ _ _ _ _ _ _ fun p _ _ _ _ => (atMost_attach _ _ _ _ o).mono (by rw [if_neg (by decide)]; decide)
  rw [if_neg h]; clear h
  by_cases h : t = MT.Tflush
  · rw [if_pos h]; subst h
    exact atMost_srv _ _ _ _ _ _ _ fun p _ _ _ _ => atMost_ret _ _
  rw [if_neg h]; clear h
  by_cases h : t = MT.Twalk
  · rw [if_pos h, if_pos h]
    refine atMost_srv _ _ _ _ _ _ _ fun p _ _ _ hd => ?_
    unfold walkNames
    rw [hd]
    exact atMost_walk _ _ _ o
  rw [if_neg h, if_neg h]; clear h
  by_cases h : t = MT.Topen
  · rw [if_pos h]
    exact atMost_srv _ _ _ _ _ _ _ fun p _ _ _ _ => (atMost_open _ _ o).mono (by decide)
  rw [if_neg h]; clear h
  by_cases h : t = MT.Tcreate
  · rw [if_pos h]
    exact atMost_srv _ _ _ _ _ _ _ fun p _ _ _ _ => (atMost_create _ _ _ _ o).mono (by decide)
  rw [if_neg h]; clear h
  by_cases h : t = MT.Tclunk
  · rw [if_pos h]
    exact atMost_srv _ _ _ _ _ _ _ fun p _ _ _ _ => (atMost_clunk _ o).mono (by decide)
  rw [if_neg h]; clear h
  by_cases h : t = MT.Tstat
  · rw [if_pos h]
    exact atMost_srv _ _ _ _ _ _ _ fun p _ _ _ _ => (atMost_stat user _ o).mono (by decide)
  rw [if_neg h]; clear h
  by_cases h : t = MT.Twstat
  · rw [if_pos h]
    exact atMost_srv _ _ _ _ _ _ _ fun p _ _ _ _ => atMost_wstat _ _ o
  rw [if_neg h]; clear h
  by_cases h : t = MT.Tremove
  · rw [if_pos h]
    exact atMost_srv _ _ _ _ _ _ _ fun p _ _ _ _ => (atMost_remove _ o).mono (by decide)
  rw [if_neg h]; clear h
  by_cases h : t = MT.Tread
  · rw [if_pos h]
    exact atMost_srv _ _ _ _ _ _ _ fun p _ _ _ _ => (atMost_read user _ _ _ o).mono (by decide)
  rw [if_neg h]; clear h
  by_cases h : t = MT.Twrite
  · rw [if_pos h]
    exact atMost_srv _ _ _ _ _ _ _ fun p _ _ _ _ => (atMost_write _ _ _ o).mono (by decide)
  rw [if_neg h]
  exact atMost_ret _ _

theorem atMost_dispatch (o : Obj H) (v : Bool) (b : Buffer) (t : MType) :
    (pdispatch user o v b t).AtMost (if t = MT.Twalk then (walkNames b).length else 6) := by
  unfold pdispatch
  by_cases h : t = MT.Tversion
  · rw [if_pos h]; exact atMost_dispatchTable user o true b t
  rw [if_neg h]
  by_cases hv : v = false
  · rw [if_pos hv]
    cases b.bytes with
    | nil => exact atMost_panic _
    | cons d0 r =>
      cases r with
      | nil => exact atMost_panic _
      | cons d1 r => exact atMost_ret _ _
  · rw [if_neg hv]; exact atMost_dispatchTable user o v b t

end
end Ninep.Ufs
