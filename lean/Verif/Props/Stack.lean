import Verif.Props.Remote
import Verif.Props.Ufs
import Verif.Props.CodecPanic

set_option linter.unusedSimpArgs false
set_option linter.unusedVariables false

/-
Property C67: the client, the server and the file server together behave like the file server alone.
-/

namespace Ninep.Ufs
open Spec Dec
variable {ω H : Type}

/-- What the host says is short: error texts and file names fit the counts of the protocol.  (On Unix a
file name has at most 255 bytes, and an error text holds at most two paths of 4096 bytes.) -/
structure Host.Short (host : Host ω H) : Prop where
  names : ∀ p w w' fi, host.lstat p w = (w', .ok fi) → fi.name.length < 2 ^ 15
  stat : ∀ p w w' e, host.stat p w = (w', .error e) → e.length < 2 ^ 16
  openFile : ∀ p fl m w w' e, host.openFile p fl m w = (w', .error e) → e.length < 2 ^ 16
  chmod : ∀ p m w e, (host.chmod p m w).2 = some e → e.length < 2 ^ 16
  rename : ∀ p q w e, (host.rename p q w).2 = some e → e.length < 2 ^ 16
  truncate : ∀ p n w e, (host.truncate p n w).2 = some e → e.length < 2 ^ 16
  chtimes : ∀ p a m w e, (host.chtimes p a m w).2 = some e → e.length < 2 ^ 16
  remove : ∀ p w w' e, host.remove p w = (w', some e) → e.length < 2 ^ 16
  seek0 : ∀ h w w' e, host.seek0 h w = (w', some e) → e.length < 2 ^ 16
  readdir1 : ∀ h w w' e, host.readdir1 h w = (w', .fail e) → e.length < 2 ^ 16
  readAt : ∀ h n o w w' d e, host.readAt h n o w = (w', d, .fail e) → e.length < 2 ^ 16
  writeAt : ∀ h b o w w' n e, host.writeAt h b o w = (w', n, some e) → e.length < 2 ^ 16

/-- requests whose own text, quoted in an error, fits a string, and whose count is not negative -/
def Ordinary : TMsg → Prop
  | .version p => p.TVersion.length ≤ 65000
  | .walk p => (p.Paths.map List.length).sum + p.Paths.length ≤ 65000
  | .read p => 0 ≤ p.Len.toInt
  | _ => True

/-! ### the lengths of error texts -/

theorem lit_append (a b : String) : lit (a ++ b) = lit a ++ lit b := by
  simp [lit, String.toByteArray_append]

theorem lit_digit (n : Nat) : (lit (.singleton (Nat.digitChar n))).length ≤ 4 := by
  have := (Nat.digitChar n).utf8Size_le_four
  rw [String.singleton_eq_ofList]
  simpa [lit, List.utf8Encode, - String.ofList_cons] using this

theorem dec_length (k n : Nat) (h : n < 10 ^ (k + 1)) : (dec n).length ≤ 4 * (k + 1) := by
  have hs : dec n = lit n.repr := rfl
  rw [hs]
  induction k generalizing n with
  | zero => rw [Nat.repr_of_lt (by simpa using h)]; exact lit_digit n
  | succ k ih =>
    by_cases h10 : n < 10
    · rw [Nat.repr_of_lt h10]; have := lit_digit n; omega
    · rw [Nat.repr_of_ge (by omega), lit_append]
      have := ih (n / 10) (by rw [Nat.pow_succ] at h; omega) rfl
      have := lit_digit (n % 10)
      simp only [List.length_append]
      omega

theorem dec_fid (f : FID) : (dec f.toNat).length ≤ 40 :=
  dec_length 9 _ (by have := f.toNat_lt; omega)

theorem fmtStrings_length (l : List GoString) : (fmtStrings l).length ≤ (l.map List.length).sum + l.length + 2 := by
  have l1 : (lit "[").length = 1 := rfl
  have l2 : (lit "]").length = 1 := rfl
  have l3 : (lit " ").length = 1 := rfl
  cases l with
  | nil => exact Nat.le_of_eq rfl
  | cons a l =>
    have : (l.flatMap fun t => lit " " ++ t).length = (l.map List.length).sum + l.length := by
      induction l with
      | nil => rfl
      | cons b l ih => simp only [List.flatMap_cons, List.length_append, ih, l3, List.map_cons, List.sum_cons, List.length_cons]; omega
    simp only [fmtStrings, List.length_append, this, l1, l2, List.map_cons, List.sum_cons, List.length_cons]
    omega

/-- the errors of a decoder statement have short texts -/
def Terse {R α : Type} (m : Dec R α) : Prop := ∀ s e s', m s = .ret e s' → (decErrText e).length < 2 ^ 16

section
variable {R α β : Type}

theorem Terse.bind {m : Dec R α} {f : α → Dec R β} (h : Terse m) (hf : ∀ a, Terse (f a)) : Terse (m >>= f) := by
  intro s e s' he
  rw [bind_def] at he
  cases hm : m s with
  | ok a s1 => rw [hm] at he; exact hf a s1 e s' he
  | ret e1 s1 =>
    rw [hm] at he
    cases he
    exact h s e s' hm
  | panic => rw [hm] at he; cases he

theorem terse_readU (n bits : Nat) (hb : bits < 100) : Terse (R := R) (readU n (.shortInt bits)) := by
  intro s e s' he
  have : e = .shortInt bits := by
    by_cases h : s.b.unread = []
    · obtain ⟨s1, h'⟩ := readU_empty n (.shortInt bits) s h
      rw [h'] at he; cases he; rfl
    · rw [readU_eq n _ s h] at he; cases he
  subst this
  have l1 : (lit "pkt too short for uint").length = 22 := rfl
  have l2 : (lit ": need ").length = 7 := rfl
  have l3 : (lit ", have 0").length = 8 := rfl
  have h1 := dec_length 1 bits (by omega)
  have h2 := dec_length 1 (bits / 8) (by omega)
  simp only [decErrText, List.length_append, l1, l2, l3]
  omega

theorem terse_setR (f : R → R) : Terse (setR f) := by intro s e s' h; cases h

theorem terse_takeString (l : Nat) (hl : l < 2 ^ 64) (f : GoString → R → R) : Terse (takeString l f) := by
  intro s e s' he
  unfold takeString at he
  by_cases h : s.b.len < l
  · rw [if_pos h] at he
    cases he
    have l1 : (lit "pkt too short for string: need ").length = 31 := rfl
    have l2 : (lit ", have ").length = 7 := rfl
    have h1 := dec_length 19 l (by omega)
    have h2 := dec_length 19 s.b.len (by omega)
    simp only [decErrText, List.length_append, l1, l2]
    omega
  · rw [if_neg h] at he; cases he

theorem terse_u8 (f : UInt8 → R → R) : Terse (getU8 f) := (terse_readU _ _ (by decide)).bind fun _ => terse_setR _
theorem terse_u16 (f : UInt16 → R → R) : Terse (getU16 f) := (terse_readU _ _ (by decide)).bind fun _ => terse_setR _
theorem terse_u32 (f : UInt32 → R → R) : Terse (getU32 f) := (terse_readU _ _ (by decide)).bind fun _ => terse_setR _
theorem terse_u64 (f : UInt64 → R → R) : Terse (getU64 f) := (terse_readU _ _ (by decide)).bind fun _ => terse_setR _
theorem terse_string (f : GoString → R → R) : Terse (getString f) :=
  (terse_readU _ _ (by decide)).bind fun _ => terse_takeString _ (UInt64.toNat_lt _) _
theorem terse_qid (upd : (QID → QID) → R → R) : Terse (getQID upd) :=
  (terse_u8 _).bind fun _ => (terse_u32 _).bind fun _ => terse_u64 _

end

theorem unmarshaldir_terse {b : Buffer} {d : Dir} {t : Tag} {e : DecErr} {b' : Buffer}
    (h : unmarshaldir b = .done d t (some e) b') : (decErrText e).length < 2 ^ 16 := by
  unfold unmarshaldir Dec.run at h
  split at h
  · cases h
  · rename_i e1 s1 hm
    cases h
    refine ((terse_u16 _).bind fun _ => (terse_u32 _).bind fun _ => (terse_qid _).bind fun _ =>
      (terse_u32 _).bind fun _ => (terse_u32 _).bind fun _ => (terse_u32 _).bind fun _ => (terse_u64 _).bind fun _ =>
      (terse_string _).bind fun _ => (terse_string _).bind fun _ => (terse_string _).bind fun _ => terse_string _) _ _ _ hm
  · cases h

variable (host : Host ω H) (user : GoString)

theorem andThen_terse {r : State ω H × Option GoString} {k : State ω H → State ω H × Option GoString}
    (hr : ∀ e, r.2 = some e → e.length < 2 ^ 16) (hk : ∀ s e, (k s).2 = some e → e.length < 2 ^ 16) :
    ∀ e, (andThen r k).2 = some e → e.length < 2 ^ 16 := by
  intro e he
  obtain ⟨s, o⟩ := r
  cases o with
  | none => exact hk _ e he
  | some e' => exact hr e he

theorem onWorld_terse {f : ω → ω × Option GoString} (hf : ∀ w e, (f w).2 = some e → e.length < 2 ^ 16) (s : State ω H) :
    ∀ e, (onWorld f s).2 = some e → e.length < 2 ^ 16 := fun e he => hf _ e he

variable {host user}

theorem wstatRun_terse (hh : host.Short) (fid : FID) (f : File H) (dir : Dir) (s : State ω H) :
    ∀ e, (wstatRun host fid f dir s).2 = some e → e.length < 2 ^ 16 := by
  have hn : ∀ (s : State ω H) e, ((s, none) : State ω H × Option GoString).2 = some e → e.length < 2 ^ 16 := by
    intro s e h; cases h
  unfold wstatRun
  refine andThen_terse ?_ fun s => andThen_terse ?_ fun s => andThen_terse ?_ fun s => andThen_terse ?_ fun s =>
    andThen_terse ?_ fun s => ?_
  · unfold wstatMode
    split
    · exact onWorld_terse (fun w => hh.chmod _ _ w) _
    · exact hn _
  · unfold wstatUser
    split
    · rintro e ⟨⟩; exact Nat.lt_of_lt_of_eq (by decide : (lit "Permission denied").length < 2 ^ 16) rfl
    · exact hn _
  · unfold wstatName
    split
    · dsimp only
      split
      · rintro e ⟨⟩; exact (by decide : (lit "is a directory").length < 2 ^ 16)
      · refine andThen_terse (onWorld_terse (fun w => hh.rename _ _ w) _) fun s => ?_
        rintro e ⟨⟩
    · exact hn _
  · unfold wstatLength
    split
    · exact onWorld_terse (fun w => hh.truncate _ _ w) _
    · exact hn _
  · unfold wstatTimes
    split
    · dsimp only
      split
      · generalize hst : host.stat _ _ = r
        obtain ⟨w, r⟩ := r
        cases r with
        | error e => rintro e' ⟨⟩; exact hh.stat _ _ _ _ hst
        | ok st => exact onWorld_terse (fun w => hh.chtimes _ _ _ w) _
      · exact onWorld_terse (fun w => hh.chtimes _ _ _ w) _
    · exact hn _
  · unfold wstatSync
    split
    · split <;> exact hn _
    · exact hn _

/-- what a request of the file server gives can be sent -/
def GoodOut (m : TMsg) : NRes (State ω H) RMsg → Prop
  | .panic => ∃ p, m = .read p ∧ p.Len.toInt < 0
  | .ok _ r => r.Fits ∧ ∀ t, (r.packet t).length < 2 ^ 32
  | .err _ e => e.length < 2 ^ 16

theorem noent_short : (lit "does not exist").length < 2 ^ 16 := by decide

theorem good_qid (m : TMsg) (s : State ω H) (q : QID) : GoodOut m (.ok s (.attach ⟨q⟩)) := by
  refine ⟨trivial, fun t => ?_⟩
  simp [RMsg.packet, Spec.packet, RMsg.body, RMsg.fields, qid]

theorem qids_length (q : List QID) : (q.map Spec.qid).flatten.length = 13 * q.length := by
  induction q with
  | nil => rfl
  | cons a q ih => rw [List.map_cons, List.flatten_cons, List.length_append, ih]; simp [Spec.qid]; omega

theorem dirRecord_length (fi : FileInfo) :
    (marshaldir {} (dirTo9p2000Dir user fi)).bytes.length = 49 + fi.name.length + user.length + user.length := by
  rw [marshaldir_eq]
  simp [encoded, Buffer.bytes, Spec.dir, dirFields, dirTo9p2000Dir, Spec.qid, str]
  omega

theorem readDir_good (hh : host.Short) (p : TreadPkt) (fid : FID) (f : File H) (h : H) (c : Count) (hc : 0 ≤ c.toInt) (s : State ω H) :
    GoodOut (.read p) (mapRes (fun q => RMsg.read ⟨q⟩) (readDir host user fid f h c s)) := by
  have key : ∀ (s : State ω H) (d : Bytes), (d.length : Int) ≤ c.toInt → GoodOut (.read p) (.ok s (.read ⟨d⟩)) := by
    intro s d hd
    have := c.toInt_lt
    refine ⟨?_, fun t => ?_⟩
    · simp only [RMsg.Fits]; omega
    · simp [RMsg.packet, Spec.packet, RMsg.body, RMsg.fields ]; omega
  unfold readDir
  dsimp only
  split
  · exact key _ _ hc
  · generalize hr : host.readdir1 h _ = r
    obtain ⟨w, r⟩ := r
    cases r with
    | eof => exact key _ _ (by omega)
    | fail e => exact hh.readdir1 _ _ _ _ hr
    | entry st =>
      dsimp only
      split
      · exact key _ _ hc
      · exact key _ _ (by omega)

/-- everything the file server answers to an ordinary request can be put on the wire -/
theorem ufs_good (hh : host.Short) (hu : user.length < 2 ^ 13) (m : TMsg) (x : State ω H) (hm : Ordinary m) (hf : m.Fits) :
    GoodOut m (call (ufs host user) m x) := by
  cases m with
  | version p =>
    simp only [call, ufs, rversion]
    have l1 : (lit " not supported; only 9P2000").length = 27 := rfl
    have hm : p.TVersion.length ≤ 65000 := hm
    split
    · simp only [mapRes, GoodOut, List.length_append, l1]; omega
    · refine ⟨?_, fun t => ?_⟩
      · simp only [RMsg.Fits]; omega
      · simp [RMsg.packet, Spec.packet, RMsg.body, RMsg.fields, str]; omega
  | attach p =>
    simp only [call, ufs, rattach]
    split
    · exact (by decide : (lit "We don't do auth attach").length < 2 ^ 16)
    · generalize hst : host.stat _ _ = r
      obtain ⟨w, r⟩ := r
      cases r with
      | error e => exact hh.stat _ _ _ _ hst
      | ok st => exact good_qid _ _ _
  | flush p => exact ⟨trivial, fun t => by simp [RMsg.packet, Spec.packet, RMsg.body, RMsg.fields]⟩
  | walk p =>
    have hm : (p.Paths.map List.length).sum + p.Paths.length ≤ 65000 := hm
    have key : ∀ (s : State ω H) (q : List QID), q.length ≤ p.Paths.length → GoodOut (.walk p) (.ok s (.walk ⟨q⟩)) := by
      intro s q hq
      refine ⟨?_, fun t => ?_⟩
      · simp only [RMsg.Fits]; omega
      · have := qids_length q
        simp only [RMsg.packet, Spec.packet, RMsg.body, RMsg.fields, List.length_append, le_length, List.length_cons, List.length_nil, this]
        omega
    simp only [call, ufs]
    rcases rwalk_cases (host := host) p.SFID p.NewFID p.Paths x with ⟨w, e, h⟩ | ⟨w, q, h, hq⟩ | ⟨f, -, -, -, h⟩ | ⟨w, f, q, y, -, hq, -, -, h⟩
    · rw [h]
      show e.length < 2 ^ 16
      have d1 := dec_fid p.SFID
      have d2 := dec_fid p.NewFID
      have l1 : (lit "FID in use: clone walk, fid ").length = 28 := rfl
      have l2 : (lit " newfid ").length = 8 := rfl
      have l3 : (lit "FID in use: walk to ").length = 20 := rfl
      have l4 : (lit ", fid ").length = 6 := rfl
      have l5 : (lit ", newfid ").length = 9 := rfl
      have hfm := fmtStrings_length p.Paths
      unfold rwalk at h
      split at h
      · obtain ⟨-, rfl⟩ := NRes.err.inj h; exact noent_short
      · split at h
        · split at h
          · obtain ⟨-, rfl⟩ := NRes.err.inj h; simp only [List.length_append]; omega
          · cases h
        · split at h
          · split at h
            · cases h; exact (by decide : (lit "file does not exist").length < 2 ^ 16)
            · cases h
          · dsimp only at h
            split at h
            · cases h; simp only [List.length_append]; omega
            · cases h
    · rw [h]; exact key _ _ (by omega)
    · rw [h]; exact key _ _ (by simp)
    · rw [h]; exact key _ _ (by omega)
  | open_ p =>
    simp only [call, ufs, ropen]
    split
    · exact noent_short
    · generalize ho : host.openFile _ _ _ _ = r
      obtain ⟨w, r⟩ := r
      cases r with
      | error e => exact hh.openFile _ _ _ _ _ _ ho
      | ok st => exact ⟨trivial, fun t => by simp [mapRes, RMsg.packet, Spec.packet, RMsg.body, RMsg.fields, qid]⟩
  | create p =>
    have key : ∀ (s : State ω H) (q : QID), GoodOut (.create p) (.ok s (.create ⟨q, 8000⟩)) := by
      intro s q
      exact ⟨trivial, fun t => by simp [RMsg.packet, Spec.packet, RMsg.body, RMsg.fields, qid]⟩
    simp only [call, ufs, rcreate]
    split
    · exact noent_short
    · split
      · exact (by decide : (lit "FID already open").length < 2 ^ 16)
      · split
        · generalize hl : host.lstat _ _ = r
          obtain ⟨w, r⟩ := r
          cases r with
          | error e => exact noent_short
          | ok st => exact key _ _
        · generalize ho : host.openFile _ _ _ _ = r
          obtain ⟨w, r⟩ := r
          cases r with
          | error e => exact hh.openFile _ _ _ _ _ _ ho
          | ok h =>
            dsimp only
            generalize hl : host.lstat _ _ = r
            obtain ⟨w, r⟩ := r
            cases r with
            | error e => exact noent_short
            | ok st => exact key _ _
  | stat p =>
    simp only [call, ufs, rstat]
    split
    · exact noent_short
    · generalize hl : host.lstat _ _ = r
      obtain ⟨w, r⟩ := r
      cases r with
      | error e => exact (by decide : (lit "ENOENT").length < 2 ^ 16)
      | ok st =>
        have := hh.names _ _ _ _ hl
        have hb := dirRecord_length (user := user) st
        refine ⟨?_, fun t => ?_⟩
        · simp only [RMsg.Fits, hb]; omega
        · simp [RMsg.packet, Spec.packet, RMsg.body, RMsg.fields, hb]; omega
  | wstat p =>
    simp only [call, ufs]
    cases hx : x.files p.OFID with
    | none => unfold rwstat; rw [hx]; exact noent_short
    | some f =>
      unfold rwstat
      rw [hx]
      dsimp only
      cases hd : unmarshaldir (Buffer.ofBytes p.B) with
      | panic => exact absurd hd (unmarshaldir_safe _)
      | done dir t e b' =>
        cases e with
        | some e => exact unmarshaldir_terse hd
        | none =>
          have := wstatRun_terse hh p.OFID f dir x
          unfold wstatRun at this
          dsimp only at this ⊢
          split
          · exact ⟨trivial, fun t => by simp [RMsg.packet, Spec.packet, RMsg.body, RMsg.fields]⟩
          · rename_i s' e' he
            rw [he] at this
            exact this e' rfl
  | clunk p =>
    simp only [call, ufs, rclunk]
    split
    · exact noent_short
    · exact ⟨trivial, fun t => by simp [RMsg.packet, Spec.packet, RMsg.body, RMsg.fields]⟩
  | remove p =>
    simp only [call, ufs, rremove]
    split
    · exact noent_short
    · generalize hr : host.remove _ _ = r
      obtain ⟨w, r⟩ := r
      cases r with
      | none => exact ⟨trivial, fun t => by simp [RMsg.packet, Spec.packet, RMsg.body, RMsg.fields]⟩
      | some e => exact hh.remove _ _ _ _ hr
  | read p =>
    have hc : 0 ≤ p.Len.toInt := hm
    simp only [call, ufs, rread]
    split
    · exact noent_short
    · split
      · exact (by decide : (lit "FID not open").length < 2 ^ 16)
      · split
        · split
          · generalize hk : host.seek0 _ _ = r
            obtain ⟨w, r⟩ := r
            cases r with
            | some e => exact hh.seek0 _ _ _ _ hk
            | none => exact readDir_good hh p _ _ _ _ hc _
          · exact readDir_good hh p _ _ _ _ hc _
        · rw [if_neg (by omega)]
          have key : ∀ (s : State ω H) (d : Bytes), GoodOut (.read p) (.ok s (.read ⟨d.take p.Len.toInt.toNat⟩)) := by
            intro s d
            have hl : (d.take p.Len.toInt.toNat).length ≤ p.Len.toInt.toNat := List.length_take_le _ _
            have := p.Len.toInt_lt
            refine ⟨?_, fun t => ?_⟩
            · simp only [RMsg.Fits]; omega
            · simp only [RMsg.packet, Spec.packet, RMsg.body, RMsg.fields , List.length_append, le_length, List.length_cons, List.length_nil]
              omega
          generalize hr : host.readAt _ _ _ _ = r
          obtain ⟨w, d, r⟩ := r
          cases r with
          | none => exact key _ _
          | eof => exact key _ _
          | fail e => exact hh.readAt _ _ _ _ _ _ _ hr
  | write p =>
    simp only [call, ufs, rwrite]
    split
    · exact noent_short
    · split
      · exact (by decide : (lit "FID not open").length < 2 ^ 16)
      · generalize hr : host.writeAt _ _ _ _ = r
        obtain ⟨w, n, r⟩ := r
        cases r with
        | none => exact ⟨trivial, fun t => by simp [RMsg.packet, Spec.packet, RMsg.body, RMsg.fields]⟩
        | some e => exact hh.writeAt _ _ _ _ _ _ _ hr

theorem ufs_modest (hh : host.Short) (hu : user.length < 2 ^ 13) : Client.Modest Ordinary (ufs host user) := by
  intro m x hm hf
  have := ufs_good hh hu m x hm hf
  exact ⟨fun x' r h => by rw [h] at this; exact this, fun x' e h => by rw [h] at this; exact this⟩

theorem ufs_returns (m : TMsg) (x : State ω H) (hm : Ordinary m) : call (ufs host user) m x ≠ .panic := by
  intro h
  obtain ⟨p, f, rfl, -, -, -, hp⟩ := (C52_panic_partial (host := host) (user := user) m x).1 h
  have : 0 ≤ p.Len.toInt := hm
  omega

open Client in
/-- **C67** The whole stack.  Any number of callers use the client, which talks to the server, which serves
the file server of a new connection on any host whose names and error texts are short.  In every execution
there is one order of the answered calls such that calling the methods of the file server directly, one
after the other in this order, leaves the file server and the host in the state they are in and gives every
call that has returned exactly the result or the error it returned.  Calls that returned before others were
made come before them in this order. -/
theorem C67_stack (hh : host.Short) (hu : user.length < 2 ^ 13) (root : GoString) (w : ω) (s s' : Sys (State ω H))
    (he : SysExec (ufs host user) everything ⟨init, ⟨newFS root w, true⟩⟩ s)
    (he' : SysExec (ufs host user) everything s s') (hf : CallsFit Ordinary s'.cl) :
    (∃ ms outs, (order s').map s'.cl.msg = ms.map some ∧
      runCalls (ufs host user) ms (newFS root w) = some (s'.srv.ns, outs) ∧
      ∀ c b, s'.cl.phase c = .done b →
        ∃ (i : Nat) (m : TMsg) (r : Except GoString RMsg), (order s')[i]? = some c ∧ ms[i]? = some m ∧ outs[i]? = some r ∧
          ∀ spare, callT m spare b = asCall m r) ∧
    ∀ c d b, s.cl.phase c = .done b → s.cl.phase d = .idle → d ∈ order s' → ∃ x y z, order s' = x ++ c :: y ++ d :: z :=
  ⟨(C36_remote_is_local Ordinary _ (ufs_modest hh hu) _ s' (sysExec_trans he he') hf).2.2,
    fun c d b hc hd hdo => C36_real_time Ordinary _ (ufs_modest hh hu) _ s s' he he' hf c d b hc hd hdo⟩

open Client in
/-- **C67**, progress: no execution goes on for ever without new calls, and when nothing can go on any more
every call that was made has returned.  (Unless 65534 calls are under way at once.) -/
theorem C67_returns (hh : host.Short) (hu : user.length < 2 ^ 13) (root : GoString) (w : ω) (s : Sys (State ω H))
    (he : SysExec (ufs host user) everything ⟨init, ⟨newFS root w, true⟩⟩ s) (hf : CallsFit Ordinary s.cl)
    (ht : s.cl.taken.length < 65534) :
    (¬ ∃ f : Nat → Sys (State ω H), f 0 = s ∧ ∀ n, ∃ l, sysSettling l ∧ SysStep (ufs host user) l (f n) (f (n + 1))) ∧
    ((∀ l s', sysSettling l → ¬ SysStep (ufs host user) l s s') →
      ∀ c, s.cl.phase c ≠ .idle → ∃ b, s.cl.phase c = .done b) :=
  C36_calls_return Ordinary _ (ufs_modest hh hu) (fun m x hm => ufs_returns m x hm) _ s he hf ht

/-! ### an instance -/

/-- the example host with names of at most 255 bytes -/
def Mem.shortHost : Host Mem.World Nat :=
  { Mem.host with
    lstat := fun p w => if (Mem.base p).length ≤ 255 then Mem.host.lstat p w else (w, .error (lit "file name too long"))
    stat := fun p w => if (Mem.base p).length ≤ 255 then Mem.host.stat p w else (w, .error (lit "file name too long")) }

theorem Mem.shortHost_short : Mem.shortHost.Short := by
  have ln : Mem.noent.length < 2 ^ 16 := by decide
  have lc : Mem.closed.length < 2 ^ 16 := by decide
  have l1 : (lit "file name too long").length < 2 ^ 16 := by decide
  have l2 : (lit "is a directory").length < 2 ^ 16 := by decide
  have l3 : (lit "invalid argument").length < 2 ^ 16 := by decide
  have l4 : (lit "negative offset").length < 2 ^ 16 := by decide
  have hn : ∀ (p : GoString) (f : Mem.Node → Mem.Node) (w : Mem.World) e, (Mem.onNode p f w).2 = some e → e.length < 2 ^ 16 := by
    intro p f w e h
    unfold Mem.onNode at h
    split at h <;> cases h
    exact ln
  refine ⟨?_, ?_, ?_, fun p m => hn p _, ?_, ?_, fun p a m => hn p _, ?_, ?_, ?_, ?_, ?_⟩
  · intro p w w' fi h
    simp only [Mem.shortHost, Mem.host] at h
    split at h
    · simp only [Mem.stat, Prod.mk.injEq] at h
      obtain ⟨-, h⟩ := h
      split at h <;> cases h
      simp only [Mem.info]; omega
    · cases h
  · intro p w w' e h
    simp only [Mem.shortHost, Mem.host] at h
    split at h
    · simp only [Mem.stat, Prod.mk.injEq] at h
      obtain ⟨-, h⟩ := h
      split at h <;> cases h
      exact ln
    · cases h; exact l1
  · intro p fl m w w' e h
    simp only [Mem.shortHost, Mem.host, Mem.openFile] at h
    split at h
    · split at h <;> cases h
      exact l2
    · split at h <;> cases h
      exact ln
  · intro p q w e h
    simp only [Mem.shortHost, Mem.host, Mem.rename] at h
    split at h <;> cases h
    exact ln
  · intro p n w e h
    simp only [Mem.shortHost, Mem.host] at h
    split at h
    · cases h; exact l3
    · exact hn _ _ _ _ h
  · intro p w w' e h
    simp only [Mem.shortHost, Mem.host, Mem.remove] at h
    split at h <;> cases h
    exact ln
  · intro hd w w' e h
    simp only [Mem.shortHost, Mem.host, Mem.onHandle] at h
    split at h
    · split at h <;> cases h
      exact lc
    · cases h; exact lc
  · intro hd w w' e h
    simp only [Mem.shortHost, Mem.host, Mem.onHandle] at h
    split at h
    · split at h
      · split at h <;> cases h
      · cases h; exact lc
    · cases h; exact lc
  · intro hd n o w w' d e h
    simp only [Mem.shortHost, Mem.host, Mem.onHandle] at h
    split at h
    · split at h
      · split at h
        · cases h; exact l4
        · simp only [Prod.mk.injEq] at h
          obtain ⟨-, -, h⟩ := h
          split at h <;> cases h
      · cases h; exact lc
    · cases h; exact lc
  · intro hd b o w w' n e h
    simp only [Mem.shortHost, Mem.host, Mem.onHandle] at h
    split at h
    · split at h
      · split at h <;> cases h
        exact l4
      · cases h; exact lc
    · cases h; exact lc

open Client in
/-- C67: an attach through client, server and file server that has returned -/
example : ∃ s b, SysExec (ufs Mem.shortHost (lit "harvey")) everything ⟨init, ⟨newFS [47, 120] Mem.world0, true⟩⟩ s ∧
    CallsFit Ordinary s.cl ∧ s.cl.phase 0 = .done b ∧ s.cl.msg 0 = some (.attach { SFID := 0, AFID := 0xFFFFFFFF }) := by
  have hmod := ufs_modest (user := lit "harvey") Mem.shortHost_short (by decide)
  have e1 : SysExec (ufs Mem.shortHost (lit "harvey")) everything ⟨init, ⟨newFS [47, 120] Mem.world0, true⟩⟩ ⟨_, _⟩ :=
    SysExec.step _ _ _ .call (SysExec.refl _) trivial (by simp [Alive, init])
      (SysStep.client .call init _ ⟨newFS [47, 120] Mem.world0, true⟩ trivial
        (Step.call init 0 (.attach { SFID := 0, AFID := 0xFFFFFFFF }) rfl))
  have hf : CallsFit Ordinary { init with
      phase := upd init.phase 0 .sending
      sending := 0 :: init.sending
      msg := upd init.msg 0 (some (.attach { SFID := 0, AFID := 0xFFFFFFFF }))
      buf := upd init.buf 0 (encodeT {} 0 (.attach { SFID := 0, AFID := 0xFFFFFFFF })).bytes } := by
    intro c m hm
    by_cases h : c = 0
    · subst h
      simp [upd] at hm
      subst hm
      simp [Ordinary, TMsg.Fits, TMsg.packet, Spec.packet, TMsg.body, TMsg.fields, str]
    · simp [upd, h, init] at hm
  obtain ⟨s, h1, h2, h3, h4⟩ := sys_settles _ _ hmod _ _ _ rfl e1 hf
  have hfs : CallsFit Ordinary s.cl := by unfold CallsFit; rw [h2]; exact hf
  have hes := sysExec_trans e1 h1
  have := (C67_returns Mem.shortHost_short (by decide) [47, 120] Mem.world0 s hes hfs (by rw [h3]; simp [init])).2 h4 0 (by
    intro hid
    have := (fresh_exec (s := ⟨init, ⟨newFS [47, 120] Mem.world0, true⟩⟩) (fun c _ => rfl) hes).1 0 hid
    rw [h2] at this
    simp [upd] at this)
  obtain ⟨b, hb⟩ := this
  exact ⟨s, b, hes, hfs, hb, by rw [h2]; simp [upd]⟩

end Ninep.Ufs
