import Verif.Lemmas.Gen
import Verif.Gen.Packets
/-
C65, C66: the generator protocol/gen.go.
-/

namespace Ninep
namespace Gen
open Spec Dec

/-! ### C65 -/

/-- **C65** Whatever the fields of a packet are, the encoder the generator writes for it is a Go program
(brackets and braces match), and it leaves in the buffer the packet of that type with that tag and these
fields, nothing else. -/
theorem C65_encoder (ty : MType) (fs : Fields) (_ : fs.Supported) (b : Buffer) (t : Tag) (v : fs.Val) :
    ∃ b', genMarshal ty fs b t v = some b' ∧
      b'.bytes = packet ty.toNat (le 2 t.toNat ++ wireFields fs v) :=
  ⟨_, genMarshal_eq ty fs b t v, rfl⟩

/-- a packet with every kind of field: a count, a nested struct, two lists, two payloads, a number last -/
def sample : Fields :=
  .cons .uint8 (.cons qidTy (.cons .strings (.cons .int32 (.cons .qids (.cons .bytes
    (.cons (.struct (.cons .uint16 (.cons .string .nil))) (.cons (.struct .nil) (.cons .dataCnt16 (.cons .uint64 .nil)))))))))

example : sample.Supported := by
  simp [sample, qidTy, Fields.Supported, Ty.Supported]

/-- **C65** The decoder the generator writes reads back what fits the counts, … -/
theorem C65_decoder (fs : Fields) (h : fs.Supported) (v : fs.Val) (hv : fs.Fits v) (t : Tag) (pre spare : Bytes) :
    genUnmarshal fs ⟨pre, le 2 t.toNat ++ wireFields fs v, spare⟩ =
      .done v t none ⟨pre ++ (le 2 t.toNat ++ wireFields fs v), [], spare⟩ := by
  obtain ⟨u', hu⟩ := (genUnmarshal_law fs h).fwd (t, v) ⟨trivial, hv⟩ pre [] spare (fun _ => 0) 0 fs.zero
  rw [List.append_nil] at hu
  unfold genUnmarshal Dec.run
  rw [genUnmarshalBody_eq, bind_ok hu, finish_nil _ rfl]

/-- … rejects bytes behind the last field, … -/
theorem C65_trailing (fs : Fields) (h : fs.Supported) (v : fs.Val) (hv : fs.Fits v) (t : Tag) (pre rest spare : Bytes)
    (hr : rest ≠ []) : genUnmarshal fs ⟨pre, le 2 t.toNat ++ wireFields fs v ++ rest, spare⟩ =
      .done v t (some (.tooLong rest.length)) ⟨pre ++ (le 2 t.toNat ++ wireFields fs v), rest, spare⟩ := by
  obtain ⟨u', hu⟩ := (genUnmarshal_law fs h).fwd (t, v) ⟨trivial, hv⟩ pre rest spare (fun _ => 0) 0 fs.zero
  unfold genUnmarshal Dec.run
  rw [genUnmarshalBody_eq, bind_ok hu]
  simp [finish, Buffer.len, List.length_pos_iff, hr]

/-- … and accepts only (the beginning of) the packet of the values it returns. -/
theorem C65_accepted (fs : Fields) (h : fs.Supported) (b b' : Buffer) (t : Tag) (v : fs.Val)
    (hd : genUnmarshal fs b = .done v t none b') :
    fs.Fits v ∧ b.unread <+: le 2 t.toNat ++ wireFields fs v ∧ b'.unread = [] := by
  unfold genUnmarshal Dec.run at hd
  rw [genUnmarshalBody_eq] at hd
  cases hm : ((getTag >>= fun _ => genDecodeStruct fs fun f => f) >>= fun _ => finish)
      (⟨b, fun _ => 0, 0, fs.zero⟩ : DSt fs.Val) with
  | panic => rw [hm] at hd; cases hd
  | ret e s => rw [hm] at hd; cases hd
  | ok a s =>
    rw [hm] at hd
    injection hd with h1 h2 _ h4
    obtain ⟨_, s₁, h5, h6⟩ := bind_eq_ok hm
    obtain ⟨rfl, he⟩ := finish_ok h6
    obtain ⟨w, hw, hs, hc⟩ := (genUnmarshal_law fs h).inv _ _ h5
    obtain rfl : w = (t, v) := by rw [← hs, h1, h2]
    refine ⟨hw.2, ?_, by rw [← h4, he]⟩
    rcases hc with hc | hc
    · rw [hc, he, List.append_nil]; exact List.prefix_refl _
    · exact hc.2

/-- **C65** The generated pair is a round trip. -/
theorem C65_round_trip (ty : MType) (fs : Fields) (h : fs.Supported) (v : fs.Val) (hv : fs.Fits v) (t : Tag) (b : Buffer)
    (pre spare : Bytes) : ∃ b', genMarshal ty fs b t v = some b' ∧
      genUnmarshal fs ⟨pre, b'.bytes.drop 5, spare⟩ = .done v t none ⟨pre ++ b'.bytes.drop 5, [], spare⟩ := by
  refine ⟨_, genMarshal_eq ty fs b t v, ?_⟩
  have : (encoded b (packet ty.toNat (le 2 t.toNat ++ wireFields fs v))).bytes.drop 5 = le 2 t.toNat ++ wireFields fs v := by
    simp [encoded, Buffer.bytes, packet, List.drop_append, ← List.append_assoc]
  rw [this]
  exact C65_decoder fs h v hv t pre spare

example : Fields.Fits (.cons .uint32 (.cons .strings (.cons qidTy .nil))) ((7 : UInt32), ([[97], []] : List GoString),
    ((0x80 : UInt8), (1 : UInt32), (2 : UInt64), ()), ()) := by
  simp [Fields.Fits, Ty.Fits, qidTy]

/-- Why the types must be supported: a field of another type is dropped silently, so that values that differ
in it have the same packet. -/
theorem C65_unsupported_dropped (ty : MType) (fs : Fields) (b : Buffer) (t : Tag) (x y : Bool) (v : fs.Val) :
    genMarshal ty (.cons .other fs) b t (x, v) = genMarshal ty (.cons .other fs) b t (y, v) := by
  exact (genMarshal_eq ty (.cons .other fs) b t (x, v)).trans (genMarshal_eq ty (.cons .other fs) b t (y, v)).symm

/-! #### the stat record -/

theorem inBWrite_bytes {ρ : Type} (n : ρ → Nat → Nat → Byte) (k : Nat) (e : Em ρ) (h : 0 < k) :
    (emitEncodeInt n k e).inBWrite = true := bytes_inBWrite n k 0 e h

mutual
theorem inBWrite_ty {ρ : Type} : (t : Ty) → (n : ρ → Nat → t.Val) → (e : Em ρ) →
    (genEncodeData t n e).inBWrite = t.endsInNumber e.inBWrite
  | .uint8, _, e => inBWrite_bytes _ 1 e (by omega)
  | .uint16, _, e => inBWrite_bytes _ 2 e (by omega)
  | .uint32, _, e => inBWrite_bytes _ 4 e (by omega)
  | .int32, _, e => inBWrite_bytes _ 4 e (by omega)
  | .uint64, _, e => inBWrite_bytes _ 8 e (by omega)
  | .string, _, _ => rfl
  | .struct fs, n, e => inBWrite_fields fs n e
  | .strings, _, _ => rfl
  | .qids, _, _ => rfl
  | .bytes, _, _ => end_inBWrite _
  | .dataCnt16, _, _ => end_inBWrite _
  | .other, _, _ => rfl
theorem inBWrite_fields {ρ : Type} : (fs : Fields) → (n : ρ → Nat → fs.Val) → (e : Em ρ) →
    (genEncodeStruct fs n e).inBWrite = fs.endsInNumber e.inBWrite
  | .nil, _, _ => rfl
  | .cons t fs, n, e => by
    rw [genEncodeStruct, inBWrite_fields fs, inBWrite_ty t]; rfl
end

/-- The encoder of a stat record: right unless the struct ends in a number; then its text is not a Go program. -/
theorem genMarshaldir_eq (fs : Fields) (b : Buffer) (v : fs.Val) :
    genMarshaldir fs b v = if fs.endsInNumber false then none
      else some (encoded b (le 2 (wireFields fs v).length ++ wireFields fs v)) := by
  let st0 : PSt fs.Val := { done := [.simple (.lit [fun _ _ => 0, fun _ _ => 0])] }
  obtain ⟨st, h1, h2, h3⟩ := (emits_fields fs (fun (r : fs.Val) _ => r) (fun _ _ => rfl))
    st0 { inBWrite := false } st0 ⟨rfl, rfl⟩ rfl
  have hp := parse_append (ρ := fs.Val) [.open_, .byte fun _ _ => 0, .byte fun _ _ => 0, .close]
    _ st0 st rfl h1.1 h2
  have hp : parse (dirCode fs) = if st.w.isSome then none else some st.done := hp
  have hw := h1.2
  rw [inBWrite_fields] at hw
  unfold genMarshaldir
  rw [hp, hw]
  simp only
  cases he : fs.endsInNumber false with
  | true => rfl
  | false =>
    rw [he] at hw
    have hn : st.w = none := by
      cases hx : st.w with
      | none => rfl
      | some es => rw [hx] at hw; cases hw
    have hc := h3 v
    simp only [PSt.cur, h2, hn, List.append_nil] at hc
    have hb : allBytes v st.done = 0 :: 0 :: wireFields fs v := by
      rw [hc]; simp [st0, allBytes, Stmt.bytes, Simple.bytes]
    simp only [execAll_eq, hb, Bool.false_eq_true, if_false, Option.some.injEq]
    simp [Buffer.write, Buffer.reset, Buffer.copyIn, putLen16_eq, Buffer.len, encoded]
    exact ⟨List.take_of_length_le (by simp), by rw [show (wireFields fs v).length + 1 + 1 = 2 + (wireFields fs v).length by omega]; simp [Buffer.backing]⟩

/-- **C65** The same for the stat record, provided that the struct does not end in a number, … -/
theorem C65_dir (fs : Fields) (h : fs.Supported) (hl : fs.endsInNumber false = false) (v : fs.Val) (hv : fs.Fits v)
    (b : Buffer) (pre rest spare : Bytes) : ∃ b', genMarshaldir fs b v = some b' ∧
      b'.bytes = le 2 (wireFields fs v).length ++ wireFields fs v ∧
      genUnmarshaldir fs ⟨pre, b'.bytes ++ rest, spare⟩ = .done v 0 none ⟨pre ++ b'.bytes, rest, spare⟩ := by
  refine ⟨_, (genMarshaldir_eq fs b v).trans (if_neg (by simp [hl])), rfl, ?_⟩
  obtain ⟨u', hu⟩ := (law_fields (R := fs.Val) fs h (fun f => f) ⟨fun _ _ _ => rfl, fun _ => rfl⟩).fwd v hv
    (pre ++ le 2 (wireFields fs v).length) rest spare (fun _ => 0) 0 fs.zero
  have hn : (⟨pre, le 2 (wireFields fs v).length ++ wireFields fs v ++ rest, spare⟩ : Buffer).next 2 =
      ⟨pre ++ le 2 (wireFields fs v).length, wireFields fs v ++ rest, spare⟩ := by
    simp [Buffer.next]
  show genUnmarshaldir fs ⟨pre, le 2 (wireFields fs v).length ++ wireFields fs v ++ rest, spare⟩ = _
  unfold genUnmarshaldir Dec.run
  rw [hn, hu]
  simp [encoded, Buffer.bytes, onR]

/-- … otherwise the generator's output does not compile. -/
theorem C65_dir_number_last (fs : Fields) (hl : fs.endsInNumber false = true) (b : Buffer) (v : fs.Val) :
    genMarshaldir fs b v = none :=
  (genMarshaldir_eq fs b v).trans (if_pos hl)

example : Fields.endsInNumber (.cons .string (.cons .uint32 .nil)) false = true ∧
    Fields.endsInNumber (.cons .uint32 (.cons .string (.cons (.struct .nil) .nil))) false = false := ⟨rfl, rfl⟩

/-! ### C66 -/

theorem wire_T (m : TMsg) : wireFields (schemaT m) (valT m) = m.fields := by
  cases m <;> simp [schemaT, valT, fields, wireFields, wire, TMsg.fields, str]

theorem wire_qidVal (q : QID) :
    le 1 (qidVal q).1.toNat ++ le 4 (qidVal q).2.1.toNat ++ le 8 (qidVal q).2.2.1.toNat = qid q := rfl

theorem wire_R (m : RMsg) : wireFields (schemaR m) (valR m) = m.fields := by
  cases m <;> simp [schemaR, valR, fields, wireFields, wire, RMsg.fields, str, qidTy, qidVal, qid]
  rfl

theorem ty_T (m : TMsg) : m.ty.toNat = m.type := by cases m <;> rfl
theorem ty_R (m : RMsg) : m.ty.toNat = m.type := by cases m <;> rfl

/-- **C66** The request encoders of genout.go are what the generator writes for the structs of protocol.go. -/
theorem C66_request_encoders (m : TMsg) (b : Buffer) (t : Tag) :
    genMarshal m.ty (schemaT m) b t (valT m) = some (encodeT b t m) := by
  rw [genMarshal_eq, wire_T, ty_T, encodeT_eq]; rfl

/-- **C66** The reply encoders. -/
theorem C66_reply_encoders (m : RMsg) (b : Buffer) (t : Tag) :
    genMarshal m.ty (schemaR m) b t (valR m) = some (encodeR b t m) := by
  rw [genMarshal_eq, wire_R, ty_R, encodeR_eq]; rfl

/-- **C66** The stat encoder. -/
theorem C66_stat_encoder (d : Dir) (b : Buffer) : genMarshaldir schemaDir b (valDir d) = some (marshaldir b d) := by
  have h : wireFields schemaDir (valDir d) = dirFields d := by
    simp [schemaDir, valDir, fields, wireFields, wire, dirFields, str, dirTy, qidTy, qidVal, qid]
  rw [genMarshaldir_eq, marshaldir_eq, h]; rfl

/-! #### changing the type of the results -/

def DSt.map {R S : Type} (φ : R → S) (s : DSt R) : DSt S := ⟨s.b, s.u, s.t, φ s.r⟩

def DRes.map {R S α : Type} (φ : R → S) : DRes R α → DRes S α
  | .ok a s => .ok a (DSt.map φ s)
  | .ret e s => .ret e (DSt.map φ s)
  | .panic => .panic

/-- the same statements on other results -/
def Same {R S α : Type} (φ : R → S) (m : Dec R α) (m' : Dec S α) : Prop := ∀ s, DRes.map φ (m s) = m' (DSt.map φ s)

section
variable {R S : Type} {φ : R → S}

theorem Same.bind {α β : Type} {m : Dec R α} {m' : Dec S α} {f : α → Dec R β} {f' : α → Dec S β} (h : Same φ m m')
    (hf : ∀ a, Same φ (f a) (f' a)) : Same φ (m >>= f) (m' >>= f') := by
  intro s
  rw [bind_def, bind_def, ← h s]
  cases m s with
  | ok a s' => exact hf a s'
  | ret e s' => rfl
  | panic => rfl

theorem same_readU (n : Nat) (e : DecErr) : Same φ (readU n e) (readU n e) := by
  intro s
  unfold readU
  simp only [DSt.map]
  generalize s.b.read n = x
  obtain ⟨a, b⟩ := x
  cases a <;> rfl

theorem same_setR {f : R → R} {f' : S → S} (h : ∀ r, φ (f r) = f' (φ r)) : Same φ (setR f) (setR f') := by
  intro s
  simp only [setR, DRes.map, DSt.map, h]

theorem same_takeString (l : Nat) {f : GoString → R → R} {f' : GoString → S → S} (h : ∀ v r, φ (f v r) = f' v (φ r)) :
    Same φ (takeString l f) (takeString l f') := by
  intro s
  unfold takeString
  by_cases hl : s.b.len < l
  · simp only [DSt.map, hl, if_true, DRes.map]
  · simp only [DSt.map, hl, if_false, DRes.map, h]

theorem same_takeData (l : Nat) {f : Bytes → R → R} {f' : Bytes → S → S} (h : ∀ v r, φ (f v r) = f' v (φ r)) :
    Same φ (takeData l f) (takeData l f') := by
  intro s
  unfold takeData
  simp only [DSt.map]
  cases s.b.sliceTo l with
  | none => rfl
  | some p => simp only [DRes.map, DSt.map, h]

theorem same_forRange {body : Nat → Dec R Unit} {body' : Nat → Dec S Unit} (h : ∀ i, Same φ (body i) (body' i)) (k i : Nat) :
    Same φ (forRange body k i) (forRange body' k i) := by
  induction k generalizing i with
  | zero => intro s; rfl
  | succ k ih => exact (h i).bind fun _ => ih (i + 1)

theorem same_getTag : Same φ getTag getTag := (same_readU _ _).bind fun _ _ => rfl

theorem same_finish : Same φ finish finish := by
  intro s
  unfold finish
  by_cases hl : s.b.len > 0
  · simp only [DSt.map, hl, if_true, DRes.map]
  · simp only [DSt.map, hl, if_false, DRes.map]

theorem same_decodeQID {n : (QidVal → QidVal) → R → R} {n' : (QidVal → QidVal) → S → S} (h : ∀ f r, φ (n f r) = n' f (φ r)) :
    Same φ (decodeQID n) (decodeQID n') := by
  unfold decodeQID
  refine Same.bind ?_ fun _ => Same.bind ?_ fun _ => Same.bind ?_ fun _ _ => rfl
  all_goals exact (same_readU _ _).bind fun _ => same_setR fun _ => h _ _

mutual
theorem same_ty : (t : Ty) → (n : (t.Val → t.Val) → R → R) → (n' : (t.Val → t.Val) → S → S) →
    (∀ f r, φ (n f r) = n' f (φ r)) → Same φ (genDecodeData t n) (genDecodeData t n')
  | .uint8, _, _, h => (same_readU _ _).bind fun _ => same_setR fun _ => h _ _
  | .uint16, _, _, h => (same_readU _ _).bind fun _ => same_setR fun _ => h _ _
  | .uint32, _, _, h => (same_readU _ _).bind fun _ => same_setR fun _ => h _ _
  | .int32, _, _, h => (same_readU _ _).bind fun _ => same_setR fun _ => h _ _
  | .uint64, _, _, h => (same_readU _ _).bind fun _ => same_setR fun _ => h _ _
  | .string, _, _, h => (same_readU _ _).bind fun _ => same_takeString _ fun _ _ => h _ _
  | .struct fs, n, n', h => same_fields fs n n' h
  | .strings, _, _, h => (same_readU _ _).bind fun _ => (same_setR fun _ => h _ _).bind fun _ => by
    refine same_forRange (fun i => ?_) _ _
    exact (same_readU _ _).bind fun _ => same_takeString _ fun _ _ => h _ _
  | .qids, _, _, h => (same_readU _ _).bind fun _ => (same_setR fun _ => h _ _).bind fun _ => by
    refine same_forRange (fun i => ?_) _ _
    exact same_decodeQID fun _ _ => h _ _
  | .bytes, _, _, h => (same_readU _ _).bind fun _ => same_takeData _ fun _ _ => h _ _
  | .dataCnt16, _, _, h => (same_readU _ _).bind fun _ => same_takeData _ fun _ _ => h _ _
  | .other, _, _, _ => fun _ => rfl
theorem same_fields : (fs : Fields) → (n : (fs.Val → fs.Val) → R → R) → (n' : (fs.Val → fs.Val) → S → S) →
    (∀ f r, φ (n f r) = n' f (φ r)) → Same φ (genDecodeStruct fs n) (genDecodeStruct fs n')
  | .nil, _, _, _ => fun _ => rfl
  | .cons t fs, n, n', h =>
    (same_ty t (fun f => n fun v => (f v.1, v.2)) (fun f => n' fun v => (f v.1, v.2)) fun _ _ => h _ _).bind fun _ =>
      same_fields fs (fun f => n fun v => (v.1, f v.2)) (fun f => n' fun v => (v.1, f v.2)) fun _ _ => h _ _
end

theorem Same.run {m : Dec R Unit} {m' : Dec S Unit} (h : Same φ m m') (zero : R) (b : Buffer) :
    (Dec.run m zero b).map φ = Dec.run m' (φ zero) b := by
  unfold Dec.run
  have := h ⟨b, fun _ => 0, 0, zero⟩
  simp only [DSt.map] at this
  rw [← this]
  cases m ⟨b, fun _ => 0, 0, zero⟩ <;> rfl

end

/-- The generated decoder with its results in a struct.  `to` and `of` convert between the struct and the
tuple of its fields. -/
theorem unmarshal_as {S : Type} (fs : Fields) (to : S → fs.Val) (of : fs.Val → S) (h : ∀ v, to (of v) = v) (b : Buffer) :
    (genUnmarshal fs b).map of = Dec.run (genUnmarshalBody fs fun f s => of (f (to s))) (of fs.zero) b := by
  refine Same.run ?_ _ b
  exact same_getTag.bind fun _ => (same_fields fs _ _ fun f r => by rw [h]).bind fun _ => same_finish

/-- the same for a message of the union -/
theorem unmarshal_kind {S M : Type} (fs : Fields) (dec : Buffer → Unm S) (k : S → M) (to : S → fs.Val) (of : fs.Val → S)
    (ofM : fs.Val → M) (hto : ∀ v, to (of v) = v) (hM : ∀ v, ofM v = k (of v))
    (hdec : ∀ b, dec b = Dec.run (genUnmarshalBody fs fun f s => of (f (to s))) (of fs.zero) b) :
    (fun b => (dec b).map k) = fun b => (genUnmarshal fs b).map ofM := by
  funext b
  rw [hdec, ← unmarshal_as fs to of hto]
  cases genUnmarshal fs b with
  | panic => rfl
  | done r t e b' => simp [Unm.map, hM]

theorem map_ofQidVal (v : List QidVal × Unit) : (List.map qidVal (List.map ofQidVal v.1), ()) = v := by
  rw [List.map_map, show qidVal ∘ ofQidVal = id from rfl, List.map_id]

theorem map_modify (xs : List QID) (i : Nat) (f : QidVal → QidVal) :
    ((xs.map qidVal).modify i f).map ofQidVal = xs.modify i fun q => ofQidVal (f (qidVal q)) := by
  apply List.ext_getElem?
  intro j
  simp only [List.getElem?_map, List.getElem?_modify]
  by_cases h : i = j
  · subst h; cases xs[i]? <;> simp
  · simp only [h, if_false]
    cases xs[j]? <;> simp [ofQidVal, qidVal]

theorem decode_qids :
    genDecodeData .qids (fun f (r : RwalkPkt) => (⟨List.map ofQidVal (f (List.map qidVal r.QIDs))⟩ : RwalkPkt)) =
      getQIDs fun f r => { r with QIDs := f r.QIDs } := by
  unfold getQIDs genDecodeData decodeQID getQID
  simp only [map_modify, List.map_replicate, bind_pure']
  rfl

/-- **C66** The request decoders of genout.go are what the generator writes for the structs of protocol.go. -/
theorem C66_request_decoders (m : TMsg) :
    decodeT m.ty = some fun b => (genUnmarshal (schemaT m) b).map (ofValT m) := by
  rw [decodeT_ty]
  congr 1
  cases m with
  | version p =>
    exact unmarshal_kind (schemaT (.version p)) unmarshalTversion TMsg.version (fun p => (p.TMsize, p.TVersion, ()))
      (fun (v : UInt32 × GoString × Unit) => ⟨v.1, v.2.1⟩) (ofValT (.version p)) (fun _ => rfl) (fun _ => rfl)
      (fun b => by simp only [genUnmarshalBody, schemaT, fields, genDecodeStruct, bind_assoc', pure_bind']; rfl)
  | attach p =>
    exact unmarshal_kind (schemaT (.attach p)) unmarshalTattach TMsg.attach (fun p => (p.SFID, p.AFID, p.Uname, p.Aname, ()))
      (fun (v : UInt32 × UInt32 × GoString × GoString × Unit) => ⟨v.1, v.2.1, v.2.2.1, v.2.2.2.1⟩) (ofValT (.attach p)) (fun _ => rfl) (fun _ => rfl)
      (fun b => by simp only [genUnmarshalBody, schemaT, fields, genDecodeStruct, bind_assoc', pure_bind']; rfl)
  | flush p =>
    exact unmarshal_kind (schemaT (.flush p)) unmarshalTflush TMsg.flush (fun p => (p.OTag, ()))
      (fun (v : UInt16 × Unit) => ⟨v.1⟩) (ofValT (.flush p)) (fun _ => rfl) (fun _ => rfl)
      (fun b => by simp only [genUnmarshalBody, schemaT, fields, genDecodeStruct, bind_assoc', pure_bind']; rfl)
  | walk p =>
    exact unmarshal_kind (schemaT (.walk p)) unmarshalTwalk TMsg.walk (fun p => (p.SFID, p.NewFID, p.Paths, ()))
      (fun (v : UInt32 × UInt32 × List GoString × Unit) => ⟨v.1, v.2.1, v.2.2.1⟩) (ofValT (.walk p)) (fun _ => rfl) (fun _ => rfl)
      (fun b => by simp only [genUnmarshalBody, schemaT, fields, genDecodeStruct, bind_assoc', pure_bind']; rfl)
  | open_ p =>
    exact unmarshal_kind (schemaT (.open_ p)) unmarshalTopen TMsg.open_ (fun p => (p.OFID, p.Omode, ()))
      (fun (v : UInt32 × UInt8 × Unit) => ⟨v.1, v.2.1⟩) (ofValT (.open_ p)) (fun _ => rfl) (fun _ => rfl)
      (fun b => by simp only [genUnmarshalBody, schemaT, fields, genDecodeStruct, bind_assoc', pure_bind']; rfl)
  | create p =>
    exact unmarshal_kind (schemaT (.create p)) unmarshalTcreate TMsg.create (fun p => (p.OFID, p.Name, p.CreatePerm, p.Omode, ()))
      (fun (v : UInt32 × GoString × UInt32 × UInt8 × Unit) => ⟨v.1, v.2.1, v.2.2.1, v.2.2.2.1⟩) (ofValT (.create p)) (fun _ => rfl) (fun _ => rfl)
      (fun b => by simp only [genUnmarshalBody, schemaT, fields, genDecodeStruct, bind_assoc', pure_bind']; rfl)
  | stat p =>
    exact unmarshal_kind (schemaT (.stat p)) unmarshalTstat TMsg.stat (fun p => (p.OFID, ()))
      (fun (v : UInt32 × Unit) => ⟨v.1⟩) (ofValT (.stat p)) (fun _ => rfl) (fun _ => rfl)
      (fun b => by simp only [genUnmarshalBody, schemaT, fields, genDecodeStruct, bind_assoc', pure_bind']; rfl)
  | wstat p =>
    exact unmarshal_kind (schemaT (.wstat p)) unmarshalTwstat TMsg.wstat (fun p => (p.OFID, p.B, ()))
      (fun (v : UInt32 × Bytes × Unit) => ⟨v.1, v.2.1⟩) (ofValT (.wstat p)) (fun _ => rfl) (fun _ => rfl)
      (fun b => by simp only [genUnmarshalBody, schemaT, fields, genDecodeStruct, bind_assoc', pure_bind']; rfl)
  | clunk p =>
    exact unmarshal_kind (schemaT (.clunk p)) unmarshalTclunk TMsg.clunk (fun p => (p.OFID, ()))
      (fun (v : UInt32 × Unit) => ⟨v.1⟩) (ofValT (.clunk p)) (fun _ => rfl) (fun _ => rfl)
      (fun b => by simp only [genUnmarshalBody, schemaT, fields, genDecodeStruct, bind_assoc', pure_bind']; rfl)
  | remove p =>
    exact unmarshal_kind (schemaT (.remove p)) unmarshalTremove TMsg.remove (fun p => (p.OFID, ()))
      (fun (v : UInt32 × Unit) => ⟨v.1⟩) (ofValT (.remove p)) (fun _ => rfl) (fun _ => rfl)
      (fun b => by simp only [genUnmarshalBody, schemaT, fields, genDecodeStruct, bind_assoc', pure_bind']; rfl)
  | read p =>
    exact unmarshal_kind (schemaT (.read p)) unmarshalTread TMsg.read (fun p => (p.OFID, p.Off, p.Len, ()))
      (fun (v : UInt32 × UInt64 × Int32 × Unit) => ⟨v.1, v.2.1, v.2.2.1⟩) (ofValT (.read p)) (fun _ => rfl) (fun _ => rfl)
      (fun b => by simp only [genUnmarshalBody, schemaT, fields, genDecodeStruct, bind_assoc', pure_bind']; rfl)
  | write p =>
    exact unmarshal_kind (schemaT (.write p)) unmarshalTwrite TMsg.write (fun p => (p.OFID, p.Off, p.Data, ()))
      (fun (v : UInt32 × UInt64 × Bytes × Unit) => ⟨v.1, v.2.1, v.2.2.1⟩) (ofValT (.write p)) (fun _ => rfl) (fun _ => rfl)
      (fun b => by simp only [genUnmarshalBody, schemaT, fields, genDecodeStruct, bind_assoc', pure_bind']; rfl)

/-- **C66** The reply decoders. -/
theorem C66_reply_decoders (m : RMsg) :
    decodeR m.ty = some fun b => (genUnmarshal (schemaR m) b).map (ofValR m) := by
  rw [decodeR_ty]
  congr 1
  cases m with
  | error p =>
    exact unmarshal_kind (schemaR (.error p)) unmarshalRerror RMsg.error (fun p => (p.Error, ()))
      (fun (v : GoString × Unit) => ⟨v.1⟩) (ofValR (.error p)) (fun _ => rfl) (fun _ => rfl)
      (fun b => by simp only [genUnmarshalBody, schemaR, fields, genDecodeStruct, bind_assoc', pure_bind']; rfl)
  | version p =>
    exact unmarshal_kind (schemaR (.version p)) unmarshalRversion RMsg.version (fun p => (p.RMsize, p.RVersion, ()))
      (fun (v : UInt32 × GoString × Unit) => ⟨v.1, v.2.1⟩) (ofValR (.version p)) (fun _ => rfl) (fun _ => rfl)
      (fun b => by simp only [genUnmarshalBody, schemaR, fields, genDecodeStruct, bind_assoc', pure_bind']; rfl)
  | attach p =>
    exact unmarshal_kind (schemaR (.attach p)) unmarshalRattach RMsg.attach (fun p => (qidVal p.QID, ()))
      (fun (v : QidVal × Unit) => ⟨ofQidVal v.1⟩) (ofValR (.attach p)) (fun _ => rfl) (fun _ => rfl)
      (fun b => by
      simp only [genUnmarshalBody, schemaR, fields, genDecodeStruct, genDecodeData, qidTy, bind_assoc', pure_bind']
      simp only [unmarshalRattach, getQID, bind_assoc']; rfl)
  | flush p =>
    exact unmarshal_kind (schemaR (.flush p)) unmarshalRflush RMsg.flush (fun p => ())
      (fun (v : Unit) => ⟨⟩) (ofValR (.flush p)) (fun _ => rfl) (fun _ => rfl)
      (fun b => by simp only [genUnmarshalBody, schemaR, fields, genDecodeStruct, pure_bind']; rfl)
  | walk p =>
    exact unmarshal_kind (schemaR (.walk p)) unmarshalRwalk RMsg.walk (fun p => (p.QIDs.map qidVal, ()))
      (fun (v : List QidVal × Unit) => ⟨v.1.map ofQidVal⟩) (ofValR (.walk p)) map_ofQidVal (fun _ => rfl)
      (fun b => by
      show _ = Dec.run (getTag >>= fun _ => (genDecodeData .qids _ >>= fun _ => pure ()) >>= fun _ => finish) _ b
      rw [show genDecodeData .qids (R := RwalkPkt) _ = _ from decode_qids]
      simp only [bind_assoc', pure_bind']; rfl)
  | open_ p =>
    exact unmarshal_kind (schemaR (.open_ p)) unmarshalRopen RMsg.open_ (fun p => (qidVal p.OQID, p.IOUnit, ()))
      (fun (v : QidVal × UInt32 × Unit) => ⟨ofQidVal v.1, v.2.1⟩) (ofValR (.open_ p)) (fun _ => rfl) (fun _ => rfl)
      (fun b => by
      simp only [genUnmarshalBody, schemaR, fields, genDecodeStruct, genDecodeData, qidTy, bind_assoc', pure_bind']
      simp only [unmarshalRopen, getQID, bind_assoc']; rfl)
  | create p =>
    exact unmarshal_kind (schemaR (.create p)) unmarshalRcreate RMsg.create (fun p => (qidVal p.OQID, p.IOUnit, ()))
      (fun (v : QidVal × UInt32 × Unit) => ⟨ofQidVal v.1, v.2.1⟩) (ofValR (.create p)) (fun _ => rfl) (fun _ => rfl)
      (fun b => by
      simp only [genUnmarshalBody, schemaR, fields, genDecodeStruct, genDecodeData, qidTy, bind_assoc', pure_bind']
      simp only [unmarshalRcreate, getQID, bind_assoc']; rfl)
  | stat p =>
    exact unmarshal_kind (schemaR (.stat p)) unmarshalRstat RMsg.stat (fun p => (p.B, ()))
      (fun (v : Bytes × Unit) => ⟨v.1⟩) (ofValR (.stat p)) (fun _ => rfl) (fun _ => rfl)
      (fun b => by simp only [genUnmarshalBody, schemaR, fields, genDecodeStruct, bind_assoc', pure_bind']; rfl)
  | wstat p =>
    exact unmarshal_kind (schemaR (.wstat p)) unmarshalRwstat RMsg.wstat (fun p => ())
      (fun (v : Unit) => ⟨⟩) (ofValR (.wstat p)) (fun _ => rfl) (fun _ => rfl)
      (fun b => by simp only [genUnmarshalBody, schemaR, fields, genDecodeStruct, pure_bind']; rfl)
  | clunk p =>
    exact unmarshal_kind (schemaR (.clunk p)) unmarshalRclunk RMsg.clunk (fun p => ())
      (fun (v : Unit) => ⟨⟩) (ofValR (.clunk p)) (fun _ => rfl) (fun _ => rfl)
      (fun b => by simp only [genUnmarshalBody, schemaR, fields, genDecodeStruct, pure_bind']; rfl)
  | remove p =>
    exact unmarshal_kind (schemaR (.remove p)) unmarshalRremove RMsg.remove (fun p => ())
      (fun (v : Unit) => ⟨⟩) (ofValR (.remove p)) (fun _ => rfl) (fun _ => rfl)
      (fun b => by simp only [genUnmarshalBody, schemaR, fields, genDecodeStruct, pure_bind']; rfl)
  | read p =>
    exact unmarshal_kind (schemaR (.read p)) unmarshalRread RMsg.read (fun p => (p.Data, ()))
      (fun (v : Bytes × Unit) => ⟨v.1⟩) (ofValR (.read p)) (fun _ => rfl) (fun _ => rfl)
      (fun b => by simp only [genUnmarshalBody, schemaR, fields, genDecodeStruct, bind_assoc', pure_bind']; rfl)
  | write p =>
    exact unmarshal_kind (schemaR (.write p)) unmarshalRwrite RMsg.write (fun p => (p.RLen, ()))
      (fun (v : Int32 × Unit) => ⟨v.1⟩) (ofValR (.write p)) (fun _ => rfl) (fun _ => rfl)
      (fun b => by simp only [genUnmarshalBody, schemaR, fields, genDecodeStruct, bind_assoc', pure_bind']; rfl)

/-- **C66** The stat decoder. -/
theorem C66_stat_decoder (b : Buffer) : unmarshaldir b = (genUnmarshaldir schemaDir b).map ofValDir := by
  unfold genUnmarshaldir
  rw [Same.run (same_fields schemaDir (fun f => f) (fun f d => ofValDir (f (valDir d))) fun f r => rfl)]
  simp only [schemaDir, dirTy, fields, genDecodeStruct, genDecodeData, qidTy, bind_assoc', bind_pure']
  simp only [unmarshaldir, getQID, bind_assoc']; rfl

end Gen
end Ninep
