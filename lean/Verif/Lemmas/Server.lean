import Verif.Props.CodecPanic
import Verif.Spec.Server

set_option linter.unusedSimpArgs false

namespace Ninep
open Spec Dec

/-! ### what every decoder leaves alone: the tag (once read) and the backing array -/

section
variable {R α β : Type}

theorem Buffer.reset_backing (b : Buffer) : b.reset.backing = b.backing := by
  simp [Buffer.reset, Buffer.backing]

theorem Buffer.next_backing (b : Buffer) (n : Nat) : (b.next n).backing = b.backing := by
  simp [Buffer.next, Buffer.backing]

theorem Buffer.read_backing (b : Buffer) (n : Nat) : (b.read n).2.backing = b.backing := by
  unfold Buffer.read
  split
  · exact b.reset_backing
  · simp [Buffer.backing]

/-- `m` changes neither the tag nor the backing array. -/
def Keeps (m : Dec R α) : Prop := ∀ s,
  (∀ a s', m s = .ok a s' → s'.t = s.t ∧ s'.b.backing = s.b.backing) ∧
  (∀ e s', m s = .ret e s' → s'.t = s.t ∧ s'.b.backing = s.b.backing)

theorem Keeps.bind {m : Dec R α} {f : α → Dec R β} (h : Keeps m) (hf : ∀ a, Keeps (f a)) :
    Keeps (m >>= f) := by
  intro s
  rw [bind_def]
  cases hm : m s with
  | panic => simp
  | ret e s' =>
    refine ⟨by simp, fun e' s'' h' => ?_⟩
    injection h' with h1 h2
    subst h1 h2
    exact (h s).2 _ _ hm
  | ok a s' =>
    have h1 := (h s).1 _ _ hm
    refine ⟨fun b s'' h' => ?_, fun e s'' h' => ?_⟩
    · have := (hf a s').1 _ _ h'
      exact ⟨this.1.trans h1.1, this.2.trans h1.2⟩
    · have := (hf a s').2 _ _ h'
      exact ⟨this.1.trans h1.1, this.2.trans h1.2⟩

theorem keeps_readU (n : Nat) (e : DecErr) : Keeps (R := R) (readU n e) := by
  intro s
  have hb := s.b.read_backing n
  unfold readU
  cases hr : s.b.read n with
  | mk o b =>
    rw [hr] at hb
    cases o with
    | none =>
      refine ⟨fun a s' h => (by cases h), fun e' s' h => ?_⟩
      injection h with h1 h2
      subst h2
      exact ⟨rfl, hb⟩
    | some p =>
      refine ⟨fun a s' h => ?_, fun e' s' h => by cases h⟩
      injection h with h1 h2
      subst h2
      exact ⟨rfl, hb⟩

theorem keeps_setR (f : R → R) : Keeps (setR f) := by
  intro s
  refine ⟨fun a s' h => ?_, fun e s' h => by cases h⟩
  injection h with h1 h2
  subst h2
  exact ⟨rfl, rfl⟩

theorem keeps_pure (a : α) : Keeps (R := R) (pure a) := by
  intro s
  refine ⟨fun a s' h => ?_, fun e s' h => by cases h⟩
  injection h with h1 h2
  subst h2
  exact ⟨rfl, rfl⟩

theorem keeps_takeString (l : Nat) (f : GoString → R → R) : Keeps (takeString l f) := by
  intro s
  unfold takeString
  split
  · refine ⟨fun a s' h => (by cases h), fun e s' h => ?_⟩
    injection h with h1 h2
    subst h2
    exact ⟨rfl, rfl⟩
  · refine ⟨fun a s' h => ?_, fun e s' h => by cases h⟩
    injection h with h1 h2
    subst h2
    exact ⟨rfl, s.b.next_backing l⟩

theorem keeps_takeData (l : Nat) (f : Bytes → R → R) : Keeps (takeData l f) := by
  intro s
  unfold takeData
  split
  · exact ⟨fun a s' h => (by cases h), fun e s' h => (by cases h)⟩
  · refine ⟨fun a s' h => ?_, fun e s' h => by cases h⟩
    injection h with h1 h2
    subst h2
    exact ⟨rfl, s.b.next_backing l⟩

theorem keeps_finish : Keeps (R := R) finish := by
  intro s
  unfold finish
  split
  · refine ⟨fun a s' h => (by cases h), fun e s' h => ?_⟩
    injection h with h1 h2
    subst h2
    exact ⟨rfl, rfl⟩
  · refine ⟨fun a s' h => ?_, fun e s' h => by cases h⟩
    injection h with h1 h2
    subst h2
    exact ⟨rfl, rfl⟩

theorem keeps_u8 (f : UInt8 → R → R) : Keeps (getU8 f) := (keeps_readU _ _).bind fun _ => keeps_setR _
theorem keeps_u16 (f : UInt16 → R → R) : Keeps (getU16 f) := (keeps_readU _ _).bind fun _ => keeps_setR _
theorem keeps_u32 (f : UInt32 → R → R) : Keeps (getU32 f) := (keeps_readU _ _).bind fun _ => keeps_setR _
theorem keeps_u64 (f : UInt64 → R → R) : Keeps (getU64 f) := (keeps_readU _ _).bind fun _ => keeps_setR _
theorem keeps_count (f : Int32 → R → R) : Keeps (getCount f) := (keeps_readU _ _).bind fun _ => keeps_setR _
theorem keeps_string (f : GoString → R → R) : Keeps (getString f) :=
  (keeps_readU _ _).bind fun _ => keeps_takeString _ _
theorem keeps_data16 (f : Bytes → R → R) : Keeps (getData16 f) :=
  (keeps_readU _ _).bind fun _ => keeps_takeData _ _
theorem keeps_data32 (f : Bytes → R → R) : Keeps (getData32 f) :=
  (keeps_readU _ _).bind fun _ => keeps_takeData _ _

theorem keeps_forRange {body : Nat → Dec R Unit} (h : ∀ i, Keeps (body i)) (k i : Nat) :
    Keeps (forRange body k i) := by
  induction k generalizing i with
  | zero => exact keeps_pure ()
  | succ k ih => exact (h i).bind fun _ => ih (i + 1)

theorem keeps_strings (upd : (List GoString → List GoString) → R → R) : Keeps (getStrings upd) :=
  (keeps_readU _ _).bind fun _ => (keeps_setR _).bind fun _ => keeps_forRange (fun _ => keeps_string _) _ _

/-- the tag the first two bytes of a body stand for -/
def tagOf (x : Bytes) : Tag := UInt16.ofNat (leVal (x.take 2))

theorem tagOf_cons (a b : Byte) (x : Bytes) : (tagOf (a :: b :: x)) = a.toUInt16 ||| b.toUInt16 <<< 8 := by
  have h := asm16_toNat (fun i => [a, b].getD i.val 0)
  apply UInt16.toNat_inj.1
  refine Eq.trans ?_ h.symm
  simp [tagOf, leVal]
  have := a.toNat_lt
  have := b.toNat_lt
  omega

theorem tagOf_le (t : Tag) (x : Bytes) : tagOf (le 2 t.toNat ++ x) = t := by
  have : (le 2 t.toNat ++ x).take 2 = le 2 t.toNat := by simp
  rw [tagOf, this, leVal_le]
  apply UInt16.toNat_inj.1
  have := t.toNat_lt
  simp

theorem le_tagOf (a b : Byte) (x : Bytes) : le 2 (tagOf (a :: b :: x)).toNat = [a, b] := by
  have h2 := le_leVal [a, b]
  have : (tagOf (a :: b :: x)).toNat = leVal [a, b] := by
    have := a.toNat_lt
    have := b.toNat_lt
    simp [tagOf, leVal]; omega
  rw [this]
  exact h2

/-- A packet decoder returns the first two bytes as the tag, whatever else happens, and leaves the
backing array alone. -/
theorem run_keeps {m : Dec R Unit} (h : Keeps m) (zero : R) {b : Buffer} {r t e b'}
    (hr : Dec.run (getTag >>= fun _ => m) zero b = .done r t e b') :
    b'.backing = b.backing ∧ (2 ≤ b.unread.length → t = tagOf b.unread) := by
  unfold Dec.run at hr
  by_cases hb : b.unread = []
  · obtain ⟨s', h'⟩ := readU_empty (R := R) 2 .shortTag ⟨b, fun _ => 0, 0, zero⟩ hb
    have hk := (keeps_readU 2 .shortTag ⟨b, fun _ => 0, 0, zero⟩).2 _ _ h'
    simp only [bind_def, getTag, h', Unm.done.injEq] at hr
    rw [← hr.2.2.2]
    exact ⟨hk.2, fun h2 => by simp [hb] at h2⟩
  · have h1 := readU_eq (R := R) 2 .shortTag ⟨b, fun _ => 0, 0, zero⟩ hb
    have hk := (keeps_readU 2 .shortTag ⟨b, fun _ => 0, 0, zero⟩).1 _ _ h1
    simp only [bind_def, getTag, h1, setT] at hr
    have ht : 2 ≤ b.unread.length → (asmLen16 fun i => (List.take 2 b.unread).getD i.val 0).toUInt16 = tagOf b.unread := by
      intro hl
      match hu : b.unread, hl with
      | x :: y :: rest, _ =>
        have := asmLen16_toNat fun i => (List.take 2 (x :: y :: rest)).getD i.val 0
        apply UInt16.toNat_inj.1
        rw [UInt64.toNat_toUInt16, this]
        simp [tagOf, leVal]
    split at hr
    · rename_i hm
      have := (h _).1 _ _ hm
      simp only [Unm.done.injEq] at hr
      rw [← hr.2.1, ← hr.2.2.2]
      exact ⟨this.2.trans hk.2, fun hl => this.1.trans (ht hl)⟩
    · rename_i hm
      have := (h _).2 _ _ hm
      simp only [Unm.done.injEq] at hr
      rw [← hr.2.1, ← hr.2.2.2]
      exact ⟨this.2.trans hk.2, fun hl => this.1.trans (ht hl)⟩
    · cases hr

end

/-- the same for a decoder followed by `Unm.map` -/
theorem map_done {α β : Type} {f : α → β} {u : Unm α} {r t e b} (h : u.map f = .done r t e b) :
    ∃ r', u = .done r' t e b ∧ r = f r' := by
  cases u with
  | panic => cases h
  | done r' t' e' b' =>
    simp only [Unm.map, Unm.done.injEq] at h
    obtain ⟨h1, rfl, rfl, rfl⟩ := h
    exact ⟨r', rfl, h1.symm⟩

theorem decT_keeps (m : TMsg) {b : Buffer} {r t e b'} (h : decT m b = .done r t e b') :
    b'.backing = b.backing ∧ (2 ≤ b.unread.length → t = tagOf b.unread) := by
  cases m <;> obtain ⟨r', h', -⟩ := map_done h
  · exact run_keeps ((keeps_u32 _).bind fun _ => (keeps_string _).bind fun _ => keeps_finish) _ h'
  · exact run_keeps ((keeps_u32 _).bind fun _ => (keeps_u32 _).bind fun _ =>
      (keeps_string _).bind fun _ => (keeps_string _).bind fun _ => keeps_finish) _ h'
  · exact run_keeps ((keeps_u16 _).bind fun _ => keeps_finish) _ h'
  · exact run_keeps ((keeps_u32 _).bind fun _ => (keeps_u32 _).bind fun _ =>
      (keeps_strings _).bind fun _ => keeps_finish) _ h'
  · exact run_keeps ((keeps_u32 _).bind fun _ => (keeps_u8 _).bind fun _ => keeps_finish) _ h'
  · exact run_keeps ((keeps_u32 _).bind fun _ => (keeps_string _).bind fun _ =>
      (keeps_u32 _).bind fun _ => (keeps_u8 _).bind fun _ => keeps_finish) _ h'
  · exact run_keeps ((keeps_u32 _).bind fun _ => keeps_finish) _ h'
  · exact run_keeps ((keeps_u32 _).bind fun _ => (keeps_data16 _).bind fun _ => keeps_finish) _ h'
  · exact run_keeps ((keeps_u32 _).bind fun _ => keeps_finish) _ h'
  · exact run_keeps ((keeps_u32 _).bind fun _ => keeps_finish) _ h'
  · exact run_keeps ((keeps_u32 _).bind fun _ => (keeps_u64 _).bind fun _ =>
      (keeps_count _).bind fun _ => keeps_finish) _ h'
  · exact run_keeps ((keeps_u32 _).bind fun _ => (keeps_u64 _).bind fun _ =>
      (keeps_data32 _).bind fun _ => keeps_finish) _ h'

/-- a decoder returns a message of its own kind -/
theorem decT_ty (m : TMsg) {b : Buffer} {r t e b'} (h : decT m b = .done r t e b') : r.ty = m.ty := by
  cases m <;> (obtain ⟨r', -, rfl⟩ := map_done h; rfl)

/-! ### `Dispatch` in one piece -/

section
variable {σ : Type}

/-- decode, call, encode -/
def handle (ns : NineServer σ) (s : Server σ) (u : Unm TMsg) : DispRes σ :=
  match u with
  | .panic => .panic
  | .done m t _ b =>
    match call ns m s.ns with
    | .panic => .panic
    | .err s' e => .done { s with ns := s' } (encodeR b t (.error ⟨e⟩))
    | .ok s' r => .done { s with ns := s' } (encodeR b t r)

theorem srvCall_eq {P Q : Type} (ns : NineServer σ) (dec : Buffer → Unm P) (cal : P → σ → NRes σ Q)
    (enc : Buffer → Tag → Q → Buffer) (f : P → TMsg) (g : Q → RMsg)
    (hc : ∀ p s, call ns (f p) s = mapRes g (cal p s)) (he : ∀ b t q, enc b t q = encodeR b t (g q))
    (s : Server σ) (b : Buffer) : srvCall dec cal enc s b = handle ns s ((dec b).map f) := by
  unfold srvCall handle
  cases dec b with
  | panic => rfl
  | done p t e b' =>
    simp only [Unm.map, hc]
    cases cal p s.ns with
    | panic => rfl
    | ok s' q => simp only [mapRes, he]
    | err s' e => rfl

theorem srvRversion_eq (ns : NineServer σ) (s : Server σ) (b : Buffer) :
    srvRversion ns s b = handle ns s ((unmarshalTversion b).map .version) := by
  unfold srvRversion
  refine srvCall_eq ns _ _ _ TMsg.version (fun q => .version ⟨q.1, q.2⟩) ?_ ?_ s b
  · intro _ _; simp only [call]
  · intro _ _ _; simp only [encodeR]

theorem srvRattach_eq (ns : NineServer σ) (s : Server σ) (b : Buffer) :
    srvRattach ns s b = handle ns s ((unmarshalTattach b).map .attach) := by
  unfold srvRattach
  refine srvCall_eq ns _ _ _ TMsg.attach (fun q => .attach ⟨q⟩) ?_ ?_ s b
  · intro _ _; simp only [call]
  · intro _ _ _; simp only [encodeR]

theorem srvRflush_eq (ns : NineServer σ) (s : Server σ) (b : Buffer) :
    srvRflush ns s b = handle ns s ((unmarshalTflush b).map .flush) := by
  unfold srvRflush
  refine srvCall_eq ns _ _ _ TMsg.flush (fun _ => .flush ⟨⟩) ?_ ?_ s b
  · intro _ _; simp only [call]
  · intro _ _ _; simp only [encodeR]

theorem srvRwalk_eq (ns : NineServer σ) (s : Server σ) (b : Buffer) :
    srvRwalk ns s b = handle ns s ((unmarshalTwalk b).map .walk) := by
  unfold srvRwalk
  refine srvCall_eq ns _ _ _ TMsg.walk (fun q => .walk ⟨q⟩) ?_ ?_ s b
  · intro _ _; simp only [call]
  · intro _ _ _; simp only [encodeR]

theorem srvRopen_eq (ns : NineServer σ) (s : Server σ) (b : Buffer) :
    srvRopen ns s b = handle ns s ((unmarshalTopen b).map .open_) := by
  unfold srvRopen
  refine srvCall_eq ns _ _ _ TMsg.open_ (fun q => .open_ ⟨q.1, q.2⟩) ?_ ?_ s b
  · intro _ _; simp only [call]
  · intro _ _ _; simp only [encodeR]

theorem srvRcreate_eq (ns : NineServer σ) (s : Server σ) (b : Buffer) :
    srvRcreate ns s b = handle ns s ((unmarshalTcreate b).map .create) := by
  unfold srvRcreate
  refine srvCall_eq ns _ _ _ TMsg.create (fun q => .create ⟨q.1, q.2⟩) ?_ ?_ s b
  · intro _ _; simp only [call]
  · intro _ _ _; simp only [encodeR]

theorem srvRstat_eq (ns : NineServer σ) (s : Server σ) (b : Buffer) :
    srvRstat ns s b = handle ns s ((unmarshalTstat b).map .stat) := by
  unfold srvRstat
  refine srvCall_eq ns _ _ _ TMsg.stat (fun q => .stat ⟨q⟩) ?_ ?_ s b
  · intro _ _; simp only [call]
  · intro _ _ _; simp only [encodeR]

theorem srvRwstat_eq (ns : NineServer σ) (s : Server σ) (b : Buffer) :
    srvRwstat ns s b = handle ns s ((unmarshalTwstat b).map .wstat) := by
  unfold srvRwstat
  refine srvCall_eq ns _ _ _ TMsg.wstat (fun _ => .wstat ⟨⟩) ?_ ?_ s b
  · intro _ _; simp only [call]
  · intro _ _ _; simp only [encodeR]

theorem srvRclunk_eq (ns : NineServer σ) (s : Server σ) (b : Buffer) :
    srvRclunk ns s b = handle ns s ((unmarshalTclunk b).map .clunk) := by
  unfold srvRclunk
  refine srvCall_eq ns _ _ _ TMsg.clunk (fun _ => .clunk ⟨⟩) ?_ ?_ s b
  · intro _ _; simp only [call]
  · intro _ _ _; simp only [encodeR]

theorem srvRremove_eq (ns : NineServer σ) (s : Server σ) (b : Buffer) :
    srvRremove ns s b = handle ns s ((unmarshalTremove b).map .remove) := by
  unfold srvRremove
  refine srvCall_eq ns _ _ _ TMsg.remove (fun _ => .remove ⟨⟩) ?_ ?_ s b
  · intro _ _; simp only [call]
  · intro _ _ _; simp only [encodeR]

theorem srvRread_eq (ns : NineServer σ) (s : Server σ) (b : Buffer) :
    srvRread ns s b = handle ns s ((unmarshalTread b).map .read) := by
  unfold srvRread
  refine srvCall_eq ns _ _ _ TMsg.read (fun q => .read ⟨q⟩) ?_ ?_ s b
  · intro _ _; simp only [call]
  · intro _ _ _; simp only [encodeR]

theorem srvRwrite_eq (ns : NineServer σ) (s : Server σ) (b : Buffer) :
    srvRwrite ns s b = handle ns s ((unmarshalTwrite b).map .write) := by
  unfold srvRwrite
  refine srvCall_eq ns _ _ _ TMsg.write (fun q => .write ⟨q⟩) ?_ ?_ s b
  · intro _ _; simp only [call]
  · intro _ _ _; simp only [encodeR]

theorem dispatchTable_request (ns : NineServer σ) (m : TMsg) (s : Server σ) (b : Buffer) :
    dispatchTable ns s b m.ty = handle ns s (decT m b) := by
  unfold decT
  cases m <;> dsimp only
  · rw [← srvRversion_eq]; simp [dispatchTable, MT.Tversion, MT.Tattach, MT.Tflush, MT.Twalk,
      MT.Topen, MT.Tcreate, MT.Tclunk, MT.Tstat, MT.Twstat, MT.Tremove, MT.Tread, MT.Twrite, TMsg.ty, TMsg.type]
  · rw [← srvRattach_eq]; simp [dispatchTable, MT.Tversion, MT.Tattach, MT.Tflush, MT.Twalk,
      MT.Topen, MT.Tcreate, MT.Tclunk, MT.Tstat, MT.Twstat, MT.Tremove, MT.Tread, MT.Twrite, TMsg.ty, TMsg.type]
  · rw [← srvRflush_eq]; simp [dispatchTable, MT.Tversion, MT.Tattach, MT.Tflush, MT.Twalk,
      MT.Topen, MT.Tcreate, MT.Tclunk, MT.Tstat, MT.Twstat, MT.Tremove, MT.Tread, MT.Twrite, TMsg.ty, TMsg.type]
  · rw [← srvRwalk_eq]; simp [dispatchTable, MT.Tversion, MT.Tattach, MT.Tflush, MT.Twalk,
      MT.Topen, MT.Tcreate, MT.Tclunk, MT.Tstat, MT.Twstat, MT.Tremove, MT.Tread, MT.Twrite, TMsg.ty, TMsg.type]
  · rw [← srvRopen_eq]; simp [dispatchTable, MT.Tversion, MT.Tattach, MT.Tflush, MT.Twalk,
      MT.Topen, MT.Tcreate, MT.Tclunk, MT.Tstat, MT.Twstat, MT.Tremove, MT.Tread, MT.Twrite, TMsg.ty, TMsg.type]
  · rw [← srvRcreate_eq]; simp [dispatchTable, MT.Tversion, MT.Tattach, MT.Tflush, MT.Twalk,
      MT.Topen, MT.Tcreate, MT.Tclunk, MT.Tstat, MT.Twstat, MT.Tremove, MT.Tread, MT.Twrite, TMsg.ty, TMsg.type]
  · rw [← srvRstat_eq]; simp [dispatchTable, MT.Tversion, MT.Tattach, MT.Tflush, MT.Twalk,
      MT.Topen, MT.Tcreate, MT.Tclunk, MT.Tstat, MT.Twstat, MT.Tremove, MT.Tread, MT.Twrite, TMsg.ty, TMsg.type]
  · rw [← srvRwstat_eq]; simp [dispatchTable, MT.Tversion, MT.Tattach, MT.Tflush, MT.Twalk,
      MT.Topen, MT.Tcreate, MT.Tclunk, MT.Tstat, MT.Twstat, MT.Tremove, MT.Tread, MT.Twrite, TMsg.ty, TMsg.type]
  · rw [← srvRclunk_eq]; simp [dispatchTable, MT.Tversion, MT.Tattach, MT.Tflush, MT.Twalk,
      MT.Topen, MT.Tcreate, MT.Tclunk, MT.Tstat, MT.Twstat, MT.Tremove, MT.Tread, MT.Twrite, TMsg.ty, TMsg.type]
  · rw [← srvRremove_eq]; simp [dispatchTable, MT.Tversion, MT.Tattach, MT.Tflush, MT.Twalk,
      MT.Topen, MT.Tcreate, MT.Tclunk, MT.Tstat, MT.Twstat, MT.Tremove, MT.Tread, MT.Twrite, TMsg.ty, TMsg.type]
  · rw [← srvRread_eq]; simp [dispatchTable, MT.Tversion, MT.Tattach, MT.Tflush, MT.Twalk,
      MT.Topen, MT.Tcreate, MT.Tclunk, MT.Tstat, MT.Twstat, MT.Tremove, MT.Tread, MT.Twrite, TMsg.ty, TMsg.type]
  · rw [← srvRwrite_eq]; simp [dispatchTable, MT.Tversion, MT.Tattach, MT.Tflush, MT.Twalk,
      MT.Topen, MT.Tcreate, MT.Tclunk, MT.Tstat, MT.Twstat, MT.Tremove, MT.Tread, MT.Twrite, TMsg.ty, TMsg.type]

theorem dispatch_request (ns : NineServer σ) (m : TMsg) (s : Server σ) (b : Buffer)
    (h : s.Versioned = true ∨ m.ty = MT.Tversion) :
    dispatch ns s b m.ty = handle ns { s with Versioned := true } (decT m b) := by
  rw [← dispatchTable_request]
  unfold dispatch
  by_cases hv : m.ty = MT.Tversion
  · rw [if_pos hv]
  · rw [if_neg hv]
    cases h with
    | inl h => rw [if_neg (by rw [h]; simp), ← h]
    | inr h => exact absurd h hv

/-- a supported type is the type of some request -/
theorem ty_of_mem {t : MType} (h : t.toNat ∈ requestTypes) : ∃ m : TMsg, m.ty = t := by
  have key : ∀ n : Nat, t.toNat = n → t = UInt8.ofNat n := by
    intro n hn
    apply UInt8.toNat_inj.1
    rw [← hn]
    simp
  simp only [requestTypes, List.mem_cons, List.not_mem_nil, or_false] at h
  rcases h with h | h | h | h | h | h | h | h | h | h | h | h <;> rw [key _ h]
  · exact ⟨.version {}, rfl⟩
  · exact ⟨.attach {}, rfl⟩
  · exact ⟨.flush {}, rfl⟩
  · exact ⟨.walk {}, rfl⟩
  · exact ⟨.open_ {}, rfl⟩
  · exact ⟨.create {}, rfl⟩
  · exact ⟨.read {}, rfl⟩
  · exact ⟨.write {}, rfl⟩
  · exact ⟨.clunk {}, rfl⟩
  · exact ⟨.remove {}, rfl⟩
  · exact ⟨.stat {}, rfl⟩
  · exact ⟨.wstat {}, rfl⟩

theorem mem_of_ty (m : TMsg) : m.ty.toNat ∈ requestTypes := by 
  cases m <;> simp [TMsg.ty, TMsg.type, requestTypes]

theorem dispatch_unversioned (ns : NineServer σ) (s : Server σ) (b : Buffer) (t : MType)
    (hv : s.Versioned = false) (ht : t ≠ MT.Tversion) (hb : 2 ≤ b.unread.length) :
    dispatch ns s b t = .done s (encodeR b (tagOf b.unread)
      (.error ⟨lit "Dispatch: " ++ rpcName t ++ lit " not allowed before Tversion"⟩)) := by
  unfold dispatch
  rw [if_neg ht, if_pos hv]
  match hu : b.bytes, hb with
  | x :: y :: rest, _ =>
    have : b.unread = x :: y :: rest := hu
    rw [this, tagOf_cons]
    rfl
  | [], hb => simp [show b.unread = [] from hu] at hb
  | [x], hb => simp [show b.unread = [x] from hu] at hb

theorem dispatch_unsupported (ns : NineServer σ) (s : Server σ) (b : Buffer) (t : MType)
    (hv : s.Versioned = true) (ht : t.toNat ∉ requestTypes) (hb : 2 ≤ b.unread.length) :
    dispatch ns s b t = .done s (encodeR ⟨b.pre ++ b.unread.take 2, b.unread.drop 2, b.spare⟩ (tagOf b.unread)
      (.error ⟨lit "Dispatch: " ++ rpcName t ++ lit " not supported"⟩)) := by
  have hne : ∀ n : MType, n.toNat ∈ requestTypes → t ≠ n := by
    rintro n hn rfl; exact ht hn
  unfold dispatch
  rw [if_neg (hne MT.Tversion (by decide)), if_neg (by rw [hv]; simp)]
  unfold dispatchTable
  rw [if_neg (hne MT.Tversion (by decide)), if_neg (hne MT.Tattach (by decide)),
    if_neg (hne MT.Tflush (by decide)), if_neg (hne MT.Twalk (by decide)), if_neg (hne MT.Topen (by decide)),
    if_neg (hne MT.Tcreate (by decide)), if_neg (hne MT.Tclunk (by decide)), if_neg (hne MT.Tstat (by decide)),
    if_neg (hne MT.Twstat (by decide)), if_neg (hne MT.Tremove (by decide)), if_neg (hne MT.Tread (by decide)),
    if_neg (hne MT.Twrite (by decide))]
  unfold serverError Buffer.read
  match hu : b.unread, hb with
  | x :: y :: rest, _ => simp only [tagOf_cons]; rfl

/-- All that `Dispatch` can do with a body of at least two bytes. -/
theorem dispatch_cases (ns : NineServer σ) (s : Server σ) (b : Buffer) (t : MType) (hb : 2 ≤ b.unread.length) :
    (s.Versioned = false ∧ t ≠ MT.Tversion ∧ ∃ e, dispatch ns s b t = .done s (encodeR b (tagOf b.unread) (.error ⟨e⟩))) ∨
    ((s.Versioned = true ∨ t = MT.Tversion) ∧ ∃ m : TMsg, m.ty = t ∧
      dispatch ns s b t = handle ns { s with Versioned := true } (decT m b)) ∨
    (s.Versioned = true ∧ t.toNat ∉ requestTypes ∧
      ∃ e b', dispatch ns s b t = .done s (encodeR b' (tagOf b.unread) (.error ⟨e⟩))) := by
  by_cases hq : t.toNat ∈ requestTypes
  · obtain ⟨m, rfl⟩ := ty_of_mem hq
    by_cases hv : s.Versioned = true ∨ m.ty = MT.Tversion
    · exact .inr (.inl ⟨hv, m, rfl, dispatch_request ns m s b hv⟩)
    · simp only [not_or, Bool.not_eq_true] at hv
      exact .inl ⟨hv.1, hv.2, _, dispatch_unversioned ns s b _ hv.1 hv.2 hb⟩
  · have hne : t ≠ MT.Tversion := by rintro rfl; exact hq (by decide)
    cases hv : s.Versioned
    · exact .inl ⟨rfl, hne, _, dispatch_unversioned ns s b _ hv hne hb⟩
    · exact .inr (.inr ⟨rfl, hq, _, _, dispatch_unsupported ns s b _ hv hq hb⟩)

/-- the reply to a request has the request's type plus one -/
theorem call_type (ns : NineServer σ) (m : TMsg) (s s' : σ) (r : RMsg) (h : call ns m s = .ok s' r) :
    r.type = m.type + 1 := by
  cases m <;> simp only [call] at h <;>
    (generalize hx : mapRes _ _ = x at h
     subst h
     unfold mapRes at hx
     split at hx <;> (cases hx; try rfl))

theorem call_logged (ns : NineServer σ) (m : TMsg) (s : σ × List TMsg) :
    call (logged ns) m s = match call ns m s.1 with
      | .panic => .panic
      | .ok s' r => .ok (s', s.2 ++ [m]) r
      | .err s' e => .err (s', s.2 ++ [m]) e := by
  cases m <;> simp only [call, logged, recorded] <;> split <;> simp_all [mapRes]

end
end Ninep
