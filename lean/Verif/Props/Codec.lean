import Verif.Lemmas.Messages
/-
Properties C01–C13: the generated wire codec.

A connection hands the bytes after `size[4] type[1]` of a packet to the decoder selected by the type
byte, in a buffer whose array may have arbitrary bytes `spare` behind the packet (and, because the
buffer may have been used before, arbitrary bytes `pre` before it).
-/

set_option linter.unusedSimpArgs false

namespace Ninep
open Spec Dec

/-- **C01** Request round trip. -/
theorem C01_request_round_trip (m : TMsg) (hm : m.Fits) (t : Tag) (b : Buffer) (pre spare : Bytes) :
    ∃ dec, decodeT m.ty = some dec ∧
      dec ⟨pre, (encodeT b t m).bytes.drop 5, spare⟩ =
        .done m t none ⟨pre ++ (encodeT b t m).bytes.drop 5, [], spare⟩ := by
  refine ⟨decT m, decodeT_ty m, ?_⟩
  have : (encodeT b t m).bytes.drop 5 = m.body t := by
    rw [encodeT_eq]
    simp [encoded, Buffer.bytes, TMsg.packet, Spec.packet, List.drop_append, ← List.append_assoc]
  rw [this]
  exact (lawsT m).fwd hm pre spare t

example : (TMsg.walk { SFID := 7, NewFID := 8, Paths := [[97], [], [98, 99]] }).Fits := by
  simp [TMsg.Fits]

/-- **C02** Reply round trip. -/
theorem C02_reply_round_trip (m : RMsg) (hm : m.Fits) (t : Tag) (b : Buffer) (pre spare : Bytes) :
    ∃ dec, decodeR m.ty = some dec ∧
      dec ⟨pre, (encodeR b t m).bytes.drop 5, spare⟩ =
        .done m t none ⟨pre ++ (encodeR b t m).bytes.drop 5, [], spare⟩ := by
  refine ⟨decR m, decodeR_ty m, ?_⟩
  have : (encodeR b t m).bytes.drop 5 = m.body t := by
    rw [encodeR_eq]
    simp [encoded, Buffer.bytes, RMsg.packet, Spec.packet, List.drop_append, ← List.append_assoc]
  rw [this]
  exact (lawsR m).fwd hm pre spare t

example : (RMsg.walk { QIDs := [{ Typ := 0x80, Path := 3 }, {}] }).Fits ∧
    (RMsg.error { Error := [1, 2, 3] }).Fits := by simp [RMsg.Fits]

/-- one directory entry, followed by anything -/
theorem unmarshaldir_fwd (d : Dir) (hd : DirFits d) (pre rest spare : Bytes) :
    unmarshaldir ⟨pre, Spec.dir d ++ rest, spare⟩ =
      .done d 0 none ⟨pre ++ Spec.dir d, rest, spare⟩ := by
  obtain ⟨u', h⟩ := decodes_dir.fwd d hd (pre ++ le 2 (dirFields d).length) rest spare (fun _ => 0) 0 {}
  have hn : (⟨pre, Spec.dir d ++ rest, spare⟩ : Buffer).next 2 =
      ⟨pre ++ le 2 (dirFields d).length, dirFields d ++ rest, spare⟩ := by
    simp [Buffer.next, Spec.dir, List.take_append, List.drop_append]
  show Dec.run _ _ _ = _
  rw [hn]
  unfold Dec.run
  rw [h]
  simp [Spec.dir, onR]

/-- Decode `n` entries one after the other, as a reader of a directory does. -/
def readEntries : (n : Nat) → Buffer → Option (List Dir × Buffer)
  | 0, b => some ([], b)
  | n + 1, b =>
    match unmarshaldir b with
    | .done d _ none b' => (readEntries n b').map fun r => (d :: r.1, r.2)
    | _ => none

/-- **C03** Directory entry round trip, with the following bytes left unread. -/
theorem C03_dir_round_trip (d : Dir) (hd : DirFits d) (b : Buffer) (pre rest spare : Bytes) :
    unmarshaldir ⟨pre, (marshaldir b d).bytes ++ rest, spare⟩ =
      .done d 0 none ⟨pre ++ (marshaldir b d).bytes, rest, spare⟩ := by
  rw [marshaldir_eq]; exact unmarshaldir_fwd d hd pre rest spare

/-- **C03**, for concatenations of entries. -/
theorem C03_dir_list (ds : List Dir) (hd : ∀ d ∈ ds, DirFits d) (b : Buffer) (pre rest spare : Bytes) :
    readEntries ds.length ⟨pre, (ds.map fun d => (marshaldir b d).bytes).flatten ++ rest, spare⟩ =
      some (ds, ⟨pre ++ (ds.map fun d => (marshaldir b d).bytes).flatten, rest, spare⟩) := by
  induction ds generalizing pre with
  | nil => simp [readEntries]
  | cons d ds ih =>
    have h := C03_dir_round_trip d (hd d (by simp)) b pre
      ((ds.map fun d => (marshaldir b d).bytes).flatten ++ rest) spare
    have ih' := ih (fun d' h' => hd d' (by simp [h'])) (pre ++ (marshaldir b d).bytes)
    simp only [List.length_cons, readEntries, List.map_cons, List.flatten_cons, List.append_assoc] at h ih' ⊢
    rw [h]
    simp only
    rw [ih']
    simp

example : DirFits { Name := [97], User := [98], Length := 5, QID := { Path := 9 } } := by
  simp [DirFits]

/-- **C04** Wire layout: the encoders write the 9P2000 format, for all values (counts modulo their
width when they do not fit). -/
theorem C04_wire_layout :
    (∀ b t m, (encodeT b t m).bytes = m.packet t) ∧
    (∀ b t m, (encodeR b t m).bytes = m.packet t) ∧
    (∀ b d, (marshaldir b d).bytes = Spec.dir d) :=
  ⟨fun b t m => by rw [encodeT_eq]; rfl, fun b t m => by rw [encodeR_eq]; rfl,
    fun b d => by rw [marshaldir_eq]; rfl⟩

/-- The header of a packet, read as the client and the server do. -/
theorem packet_header (ty : Nat) (hty : ty < 256) (t : Tag) (f : Bytes)
    (hl : (Spec.packet ty (le 2 t.toNat ++ f)).length < 2 ^ 32) :
    leVal ((Spec.packet ty (le 2 t.toNat ++ f)).take 4) = (Spec.packet ty (le 2 t.toNat ++ f)).length ∧
    (Spec.packet ty (le 2 t.toNat ++ f))[4]? = some (UInt8.ofNat ty) ∧
    leVal (((Spec.packet ty (le 2 t.toNat ++ f)).drop 5).take 2) = t.toNat := by
  have h4 : ∀ n, (le 4 n).length = 4 := fun n => le_length 4 n
  refine ⟨?_, ?_, ?_⟩
  · simp only [Spec.packet, List.append_assoc, List.length_append, le_length] at hl ⊢
    rw [List.take_append_of_le_length (by simp), List.take_of_length_le (by simp), leVal_le,
      Nat.mod_eq_of_lt (by omega)]
    omega
  · simp [Spec.packet, le, Nat.mod_eq_of_lt hty]
  · have : ((Spec.packet ty (le 2 t.toNat ++ f)).drop 5).take 2 = le 2 t.toNat := by
      simp [Spec.packet, List.drop_append, List.take_append, ← List.append_assoc]
    rw [this, leVal_le, Nat.mod_eq_of_lt]
    have := t.toNat_lt
    omega

/-- **C05** The size field is the packet length, then type and tag. -/
theorem C05_size_field (b : Buffer) (t : Tag) :
    (∀ m, (encodeT b t m).bytes.length < 2 ^ 32 →
      leVal ((encodeT b t m).bytes.take 4) = (encodeT b t m).bytes.length ∧
      (encodeT b t m).bytes[4]? = some m.ty ∧
      leVal (((encodeT b t m).bytes.drop 5).take 2) = t.toNat) ∧
    (∀ m, (encodeR b t m).bytes.length < 2 ^ 32 →
      leVal ((encodeR b t m).bytes.take 4) = (encodeR b t m).bytes.length ∧
      (encodeR b t m).bytes[4]? = some m.ty ∧
      leVal (((encodeR b t m).bytes.drop 5).take 2) = t.toNat) := by
  refine ⟨fun m h => ?_, fun m h => ?_⟩
  · rw [C04_wire_layout.1] at h ⊢
    exact packet_header m.type (by cases m <;> simp [TMsg.type]) t m.fields h
  · rw [C04_wire_layout.2.1] at h ⊢
    exact packet_header m.type (by cases m <;> simp [RMsg.type]) t m.fields h

example : (encodeT {} 5 (.write { OFID := 1, Off := 2, Data := [1, 2, 3] })).bytes.length < 2 ^ 32 := by
  rw [C04_wire_layout.1]; simp [TMsg.packet, Spec.packet, TMsg.body, TMsg.fields]

/-- **C06** What the buffer held before does not matter. -/
theorem C06_old_contents (b b' : Buffer) (t : Tag) :
    (∀ m, (encodeT b t m).bytes = (encodeT b' t m).bytes) ∧
    (∀ m, (encodeR b t m).bytes = (encodeR b' t m).bytes) ∧
    (∀ d, (marshaldir b d).bytes = (marshaldir b' d).bytes) := by
  simp [C04_wire_layout]

theorem packet_body_inj {a a' : Nat} (ha : a < 256) (ha' : a' < 256) {x x' : Bytes}
    (h : Spec.packet a x = Spec.packet a' x') : a = a' ∧ x = x' := by
  simp only [Spec.packet, List.append_assoc] at h
  have h1 := (List.append_inj h (by simp)).2
  have h2 := List.append_inj h1 (by simp)
  exact ⟨le_inj (n := 1) (by omega) (by omega) h2.1, h2.2⟩

theorem Spec.TMsg.type_lt (m : TMsg) : m.type < 256 := by cases m <;> simp [TMsg.type]

theorem decT_of_type {m m' : TMsg} (h : m.type = m'.type) : decT m = decT m' := by
  have := decodeT_ty m
  rw [show m.ty = m'.ty by rw [TMsg.ty, h]; rfl, decodeT_ty m'] at this
  exact (Option.some.inj this).symm

theorem Spec.TMsg.packet_inj {m m' : TMsg} {t t' : Tag} (hm : m.Fits) (hm' : m'.Fits)
    (h : m.packet t = m'.packet t') : t = t' ∧ m = m' := by
  obtain ⟨hty, hb⟩ := packet_body_inj m.type_lt m'.type_lt h
  have h1 := (lawsT m).fwd hm [] [] t
  have h2 := (lawsT m').fwd hm' [] [] t'
  rw [decT_of_type hty, hb, h2] at h1
  injection h1 with h1 h2
  exact ⟨h2.symm, h1.symm⟩

/-- no packet is a proper prefix of another -/
theorem Spec.TMsg.packet_prefix {m m' : TMsg} {t t' : Tag}
    (hl : (m.packet t).length < 2 ^ 32) (hl' : (m'.packet t').length < 2 ^ 32) (rest rest' : Bytes)
    (h : m.packet t ++ rest = m'.packet t' ++ rest') : m.packet t = m'.packet t' ∧ rest = rest' := by
  have a := (packet_header m.type m.type_lt t m.fields hl).1
  have a' := (packet_header m'.type m'.type_lt t' m'.fields hl').1
  have e : (m.packet t).take 4 = (m'.packet t').take 4 := by
    have := congrArg (List.take 4) h
    rwa [List.take_append_of_le_length, List.take_append_of_le_length] at this
    · simp [TMsg.packet, Spec.packet]
    · simp [TMsg.packet, Spec.packet]
  have : (m.packet t).length = (m'.packet t').length := by
    show (Spec.packet m.type (le 2 t.toNat ++ m.fields)).length =
      (Spec.packet m'.type (le 2 t'.toNat ++ m'.fields)).length
    rw [← a, ← a']
    exact congrArg leVal e
  exact List.append_inj h this

/-- **C07** Encodings are unambiguous: equal packets come from equal requests, and a stream of packets
splits in one way only. -/
theorem C07_unambiguous (b b' : Buffer) :
    (∀ m m' t t', m.Fits → m'.Fits → (encodeT b t m).bytes = (encodeT b' t' m').bytes →
      t = t' ∧ m = m') ∧
    (∀ ms ms' : List (Tag × TMsg),
      (∀ x ∈ ms, x.2.Fits ∧ (encodeT b x.1 x.2).bytes.length < 2 ^ 32) →
      (∀ x ∈ ms', x.2.Fits ∧ (encodeT b' x.1 x.2).bytes.length < 2 ^ 32) →
      (ms.map fun x => (encodeT b x.1 x.2).bytes).flatten =
        (ms'.map fun x => (encodeT b' x.1 x.2).bytes).flatten → ms = ms') := by
  simp only [C04_wire_layout]
  refine ⟨fun m m' t t' hm hm' h => TMsg.packet_inj hm hm' h, ?_⟩
  intro ms
  induction ms with
  | nil =>
    intro ms' _ _ h
    cases ms' with
    | nil => rfl
    | cons x' ms' => simp [TMsg.packet, Spec.packet, le] at h
  | cons x ms ih =>
    intro ms' hms hms' h
    cases ms' with
    | nil => simp [TMsg.packet, Spec.packet, le] at h
    | cons x' ms' =>
      simp only [List.map_cons, List.flatten_cons] at h
      have hx := hms x (by simp)
      have hx' := hms' x' (by simp)
      obtain ⟨h1, h2⟩ := TMsg.packet_prefix hx.2 hx'.2 _ _ h
      obtain ⟨e1, e2⟩ := TMsg.packet_inj hx.1 hx'.1 h1
      have := ih ms' (fun y hy => hms y (by simp [hy])) (fun y hy => hms' y (by simp [hy])) h2
      rw [this, show x = x' from Prod.ext e1 e2]

example : (TMsg.remove { OFID := 1 }).Fits ∧
    ((encodeT {} 3 (.remove { OFID := 1 })).bytes.length < 2 ^ 32) := by
  rw [C04_wire_layout.1]
  simp [TMsg.Fits, TMsg.packet, Spec.packet, TMsg.body, TMsg.fields]

theorem ite_some {α : Type} {c : Prop} [Decidable c] {a x : α} {r : Option α}
    (h : (if c then some a else r) = some x) : (c ∧ a = x) ∨ r = some x := by
  by_cases hc : c
  · rw [if_pos hc] at h; exact Or.inl ⟨hc, Option.some.inj h⟩
  · rw [if_neg hc] at h; exact Or.inr h

theorem decodeT_some {ty : MType} {dec : Buffer → Unm TMsg} (h : decodeT ty = some dec) :
    ∃ m : TMsg, m.ty = ty ∧ dec = decT m := by
  unfold decodeT at h
  obtain ⟨rfl, rfl⟩ | h := ite_some h
  · exact ⟨.version {}, rfl, rfl⟩
  obtain ⟨rfl, rfl⟩ | h := ite_some h
  · exact ⟨.attach {}, rfl, rfl⟩
  obtain ⟨rfl, rfl⟩ | h := ite_some h
  · exact ⟨.flush {}, rfl, rfl⟩
  obtain ⟨rfl, rfl⟩ | h := ite_some h
  · exact ⟨.walk {}, rfl, rfl⟩
  obtain ⟨rfl, rfl⟩ | h := ite_some h
  · exact ⟨.open_ {}, rfl, rfl⟩
  obtain ⟨rfl, rfl⟩ | h := ite_some h
  · exact ⟨.create {}, rfl, rfl⟩
  obtain ⟨rfl, rfl⟩ | h := ite_some h
  · exact ⟨.clunk {}, rfl, rfl⟩
  obtain ⟨rfl, rfl⟩ | h := ite_some h
  · exact ⟨.stat {}, rfl, rfl⟩
  obtain ⟨rfl, rfl⟩ | h := ite_some h
  · exact ⟨.wstat {}, rfl, rfl⟩
  obtain ⟨rfl, rfl⟩ | h := ite_some h
  · exact ⟨.remove {}, rfl, rfl⟩
  obtain ⟨rfl, rfl⟩ | h := ite_some h
  · exact ⟨.read {}, rfl, rfl⟩
  obtain ⟨rfl, rfl⟩ | h := ite_some h
  · exact ⟨.write {}, rfl, rfl⟩
  cases h

theorem decodeR_some {ty : MType} {dec : Buffer → Unm RMsg} (h : decodeR ty = some dec) :
    ∃ m : RMsg, m.ty = ty ∧ dec = decR m := by
  unfold decodeR at h
  obtain ⟨rfl, rfl⟩ | h := ite_some h
  · exact ⟨.error {}, rfl, rfl⟩
  obtain ⟨rfl, rfl⟩ | h := ite_some h
  · exact ⟨.version {}, rfl, rfl⟩
  obtain ⟨rfl, rfl⟩ | h := ite_some h
  · exact ⟨.attach {}, rfl, rfl⟩
  obtain ⟨rfl, rfl⟩ | h := ite_some h
  · exact ⟨.flush {}, rfl, rfl⟩
  obtain ⟨rfl, rfl⟩ | h := ite_some h
  · exact ⟨.walk {}, rfl, rfl⟩
  obtain ⟨rfl, rfl⟩ | h := ite_some h
  · exact ⟨.open_ {}, rfl, rfl⟩
  obtain ⟨rfl, rfl⟩ | h := ite_some h
  · exact ⟨.create {}, rfl, rfl⟩
  obtain ⟨rfl, rfl⟩ | h := ite_some h
  · exact ⟨.clunk {}, rfl, rfl⟩
  obtain ⟨rfl, rfl⟩ | h := ite_some h
  · exact ⟨.stat {}, rfl, rfl⟩
  obtain ⟨rfl, rfl⟩ | h := ite_some h
  · exact ⟨.wstat {}, rfl, rfl⟩
  obtain ⟨rfl, rfl⟩ | h := ite_some h
  · exact ⟨.remove {}, rfl, rfl⟩
  obtain ⟨rfl, rfl⟩ | h := ite_some h
  · exact ⟨.read {}, rfl, rfl⟩
  obtain ⟨rfl, rfl⟩ | h := ite_some h
  · exact ⟨.write {}, rfl, rfl⟩
  cases h

/-- **C08** Accepted packets are canonical. -/
theorem C08_accepted_canonical :
    (∀ ty dec b m t b', decodeT ty = some dec → dec b = .done m t none b' →
      m.ty = ty ∧ m.Fits ∧ b.unread <+: m.body t ∧
      ((m.body t).length ≤ b.unread.length → b.unread = m.body t)) ∧
    (∀ ty dec b m t b', decodeR ty = some dec → dec b = .done m t none b' →
      m.ty = ty ∧ m.Fits ∧ b.unread <+: m.body t ∧
      ((m.body t).length ≤ b.unread.length → b.unread = m.body t)) := by
  constructor
  · intro ty dec b m t b' hd h
    obtain ⟨m₀, hm, rfl⟩ := decodeT_some hd
    obtain ⟨h1, h2, h3, -⟩ := (lawsT m₀).inv b m t b' h
    exact ⟨h1.trans hm, h2, h3, fun hl => h3.eq_of_length_le hl⟩
  · intro ty dec b m t b' hd h
    obtain ⟨m₀, hm, rfl⟩ := decodeR_some hd
    obtain ⟨h1, h2, h3, -⟩ := (lawsR m₀).inv b m t b' h
    exact ⟨h1.trans hm, h2, h3, fun hl => h3.eq_of_length_le hl⟩

example : ∃ b m t b', (decodeT 120).map (· b) = some (.done m t none b') :=
  ⟨⟨[], [1, 0, 9, 0, 0, 0], []⟩, .clunk { OFID := 9 }, 1, ⟨[1, 0, 9, 0, 0, 0], [], []⟩, rfl⟩

/-- **C09**, the true part: a truncation that goes unnoticed lies strictly inside the last integer,
count or payload of the message; every other truncation is rejected.  In particular every truncation of
a Topen or Tcreate is rejected.

Full statement (false, see `C09_counterexample`): *no* proper initial segment of an encoded body is
accepted. -/
theorem C09_truncation_partial :
    (∀ (m : TMsg) (t : Tag) (w pre spare : Bytes) (m' : TMsg) (t' : Tag) (b' : Buffer), m.Fits →
      w <+: m.body t → w.length < (m.body t).length →
      decT m ⟨pre, w, spare⟩ = .done m' t' none b' → m.slack ((m.body t).length - w.length)) ∧
    (∀ (m : RMsg) (t : Tag) (w pre spare : Bytes) (m' : RMsg) (t' : Tag) (b' : Buffer), m.Fits →
      w <+: m.body t → w.length < (m.body t).length →
      decR m ⟨pre, w, spare⟩ = .done m' t' none b' → m.slack ((m.body t).length - w.length)) :=
  ⟨fun m t w pre spare m' t' b' hm hw hl hd => (lawsT m).trunc hm pre spare t w m' t' b' hw hl hd,
   fun m t w pre spare m' t' b' hm hw hl hd => (lawsR m).trunc hm pre spare t w m' t' b' hw hl hd⟩

/-- **C09** is false: *every* Tclunk that lost one to three of its last bytes is accepted. -/
theorem C09_counterexample (t : Tag) (f : FID) (k : Nat) (h0 : 0 < k) (hk : k < 4) (pre spare : Bytes) :
    ∃ m' b', decT (.clunk { OFID := f })
      ⟨pre, ((TMsg.clunk { OFID := f }).body t).take (6 - k), spare⟩ = .done m' t none b' := by
  have e : ((TMsg.clunk { OFID := f }).body t).take (6 - k) = le 2 t.toNat ++ (le 4 f.toNat).take (4 - k) := by
    simp only [TMsg.body, TMsg.fields]
    rw [List.take_append, List.take_of_length_le (by simp; omega), le_length]
    congr 2; omega
  rw [e]
  obtain ⟨u₁, h₁⟩ := (codes_tag (R := TclunkPkt)).fwd t trivial pre ((le 4 f.toNat).take (4 - k)) spare
    (fun _ => 0) 0 {}
  obtain ⟨u₂, -, h₂⟩ := readU_short (R := TclunkPkt) (n := 4) (by omega) (.shortInt 32)
    ((le 4 f.toNat).take (4 - k)) (pre ++ le 2 t.toNat) spare u₁ t {} (by simp)
    (by rw [← List.length_pos_iff]; simp; omega)
  refine ⟨.clunk { OFID := asm32 u₂ }, ⟨pre ++ le 2 t.toNat ++ (le 4 f.toNat).take (4 - k), [], spare⟩, ?_⟩
  have : unmarshalTclunk ⟨pre, le 2 t.toNat ++ (le 4 f.toNat).take (4 - k), spare⟩ =
      .done { OFID := asm32 u₂ } t none
        ⟨pre ++ le 2 t.toNat ++ (le 4 f.toNat).take (4 - k), [], spare⟩ := by
    unfold unmarshalTclunk Dec.run
    rw [bind_ok h₁]
    unfold getU32
    rw [bind_def, bind_ok h₂]
    rfl
  show Unm.map _ (unmarshalTclunk _) = _
  rw [this]; rfl

example : (TMsg.create { Name := [97], OFID := 3 }).Fits ∧ [3, 0, 3] <+: (TMsg.create { Name := [97], OFID := 3 }).body 3 := by
  constructor
  · simp [TMsg.Fits]
  · exact ⟨_, rfl⟩

/-- **C10** Trailing garbage is rejected. -/
theorem C10_trailing_rejected (t : Tag) (rest pre spare : Bytes) (hr : rest ≠ []) :
    (∀ m : TMsg, m.Fits → ∃ dec, decodeT m.ty = some dec ∧ ∃ b',
      dec ⟨pre, m.body t ++ rest, spare⟩ = .done m t (some (.tooLong rest.length)) b') ∧
    (∀ m : RMsg, m.Fits → ∃ dec, decodeR m.ty = some dec ∧ ∃ b',
      dec ⟨pre, m.body t ++ rest, spare⟩ = .done m t (some (.tooLong rest.length)) b') :=
  ⟨fun m hm => ⟨_, decodeT_ty m, _, (lawsT m).trail hm pre rest spare t hr⟩,
   fun m hm => ⟨_, decodeR_ty m, _, (lawsR m).trail hm pre rest spare t hr⟩⟩

/-- **C12** An over-long error text is never received as a valid Rerror. -/
theorem C12_long_error (s : GoString) (hs : 2 ^ 16 ≤ s.length) (t : Tag) (b : Buffer) (pre spare : Bytes) :
    ∃ r e b', unmarshalRerror ⟨pre, (marshalRerror b t { Error := s }).bytes.drop 5, spare⟩ =
      .done r t (some e) b' := by
  have h1 : (marshalRerror b t { Error := s }).bytes.drop 5 = le 2 t.toNat ++ (le 2 s.length ++ s) := by
    have : marshalRerror b t { Error := s } = encodeR b t (.error { Error := s }) := rfl
    rw [this, encodeR_eq]
    simp [encoded, Buffer.bytes, RMsg.packet, Spec.packet, List.drop_append, ← List.append_assoc,
      RMsg.body, RMsg.fields, str]
  have hlt : s.length % 2 ^ 16 < 2 ^ 16 := Nat.mod_lt _ (by omega)
  let v := s.take (s.length % 2 ^ 16)
  have hv : v.length = s.length % 2 ^ 16 := by
    show (s.take _).length = _
    rw [List.length_take]; omega
  have hle : le 2 s.length = le 2 v.length := by
    rw [hv]
    have := le_leVal (le 2 s.length)
    rw [leVal_le, le_length] at this
    exact this.symm
  have h2 : le 2 t.toNat ++ (le 2 s.length ++ s) =
      (RMsg.error { Error := v }).body t ++ s.drop (s.length % 2 ^ 16) := by
    have : v ++ s.drop (s.length % 2 ^ 16) = s := List.take_append_drop _ _
    simp only [RMsg.body, RMsg.fields, str, List.append_assoc]
    rw [this, hle]
  rw [h1, h2]
  have := decodes_Rerror.trail pre (s.drop (s.length % 2 ^ 16)) spare t { Error := v }
    (by simp only [RMsg.Fits]; omega) (by rw [← List.length_pos_iff, List.length_drop]; omega)
  exact ⟨_, _, _, this⟩

example : 2 ^ 16 ≤ (List.replicate (2 ^ 16) (97 : UInt8)).length :=
  Nat.le_of_eq (List.length_replicate ..).symm

/-- `b[5], b[6] = byte(t), byte(t>>8)` (client.go:137-138) -/
def patchTag (p : Bytes) (t : Tag) : Bytes := (p.set 5 t.toUInt8).set 6 (t >>> 8).toUInt8

/-- **C13** Tag patching. -/
theorem C13_tag_patching (b b' : Buffer) (m : TMsg) (t t' : Tag) :
    patchTag (encodeT b t m).bytes t' = (encodeT b' t' m).bytes := by
  rw [C04_wire_layout.1, C04_wire_layout.1]
  have hb (t : Tag) : m.packet t = le 4 (4 + 1 + (2 + m.fields.length)) ++ (le 1 m.type ++ (put16 t ++ m.fields)) := by
    simp [TMsg.packet, Spec.packet, TMsg.body, put16_eq]
  rw [hb, hb]
  simp [patchTag, le, put16]

end Ninep
