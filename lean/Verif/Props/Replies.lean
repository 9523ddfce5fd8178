import Verif.Props.Oversize
/-
C110: what a call that succeeds says about the reply.
C111: messages with parts too long for the wire, at the receiver.
-/

namespace Ninep.Client
open Spec

theorem zeroR_type (m : TMsg) : (zeroR m).type = m.type + 1 := by cases m <;> rfl

theorem callRes_map {P : Type} (dec : Buffer → Unm P) (zero : P) (f : P → RMsg) (spare bb : Bytes) :
    (callRes dec zero spare bb).map f =
      if bb.length < 5 then .panic
      else if bb.getD 4 0 = MT.Rerror then
        match decR (.error {}) ⟨[], bb.drop 5, spare⟩ with
        | .done (.error s) _ none _ => .ret (f zero) (some (.remote s.Error))
        | .done _ _ (some e) _ => .ret (f zero) (some (.decode e))
        | _ => .panic
      else
        match (dec ⟨[], bb.drop 5, spare⟩).map f with
        | .panic => .panic
        | .done r _ e _ => .ret r (e.map .decode) := by
  unfold callRes
  split
  · rfl
  · split
    · simp only [decR]
      cases unmarshalRerror ⟨[], bb.drop 5, spare⟩ with
      | panic => rfl
      | done s t e b => cases e <;> rfl
    · cases dec ⟨[], bb.drop 5, spare⟩ <;> rfl

/-- all calls at once -/
theorem callT_eq (m : TMsg) (spare bb : Bytes) : callT m spare bb =
      if bb.length < 5 then .panic
      else if bb.getD 4 0 = MT.Rerror then
        match decR (.error {}) ⟨[], bb.drop 5, spare⟩ with
        | .done (.error s) _ none _ => .ret (zeroR m) (some (.remote s.Error))
        | .done _ _ (some e) _ => .ret (zeroR m) (some (.decode e))
        | _ => .panic
      else
        match decR (zeroR m) ⟨[], bb.drop 5, spare⟩ with
        | .panic => .panic
        | .done r _ e _ => .ret r (e.map .decode) := by
  cases m <;> exact callRes_map _ _ _ _ _

theorem tyR_type {r r' : RMsg} (h : r.ty = r'.ty) : r.type = r'.type := by
  have lt : ∀ r : RMsg, r.type < 256 := by intro r; cases r <;> simp [RMsg.type]
  have h1 := congrArg UInt8.toNat h
  have h2 := lt r
  have h3 := lt r'
  simpa [RMsg.ty, Nat.mod_eq_of_lt h2, Nat.mod_eq_of_lt h3] using h1

theorem decR_type {r r' : RMsg} (h : r.type = r'.type) : decR r = decR r' := by
  cases r <;> cases r' <;> first | rfl | (simp [RMsg.type] at h)

theorem decR_sound {r r' : RMsg} {w spare : Bytes} {t : Tag} {b : Buffer} (h : decR r ⟨[], w, spare⟩ = .done r' t none b) :
    r'.type = r.type ∧ r'.Fits ∧ w <+: r'.body t ∧ (w = r'.body t ∨ r'.slack ((r'.body t).length - w.length)) := by
  obtain ⟨h1, h2, h3, -⟩ := (lawsR r).inv _ _ _ _ h
  have h4 := tyR_type h1
  refine ⟨h4, h2, h3, ?_⟩
  by_cases hl : w.length < (r'.body t).length
  · rw [← decR_type h4] at h
    exact .inr ((lawsR r').trunc h2 _ _ _ _ _ _ _ h3 hl h)
  · exact .inl (List.IsPrefix.eq_of_length_le h3 (by omega))

/-- **C110** (partly: the type of the packet is not looked at, and some cuts are not noticed, C09).  A call that succeeds
with the result `r` has got a packet that is not an Rerror and has, behind the type, a tag and the fields of `r`, which is
a reply of the kind that belongs to the call; if anything of it is missing it is less than C09 allows. -/
theorem C110_success_partial {m : TMsg} {spare bb : Bytes} {r : RMsg} (h : callT m spare bb = .ret r none) :
    5 ≤ bb.length ∧ bb.getD 4 0 ≠ MT.Rerror ∧ r.type = m.type + 1 ∧ r.Fits ∧
    ∃ t, bb.drop 5 <+: r.body t ∧ (bb.drop 5 = r.body t ∨ r.slack ((r.body t).length - (bb.drop 5).length)) := by
  rw [callT_eq] at h
  split at h
  · cases h
  · rename_i h5
    split at h
    · split at h <;> cases h
    · rename_i hne
      split at h
      · cases h
      · rename_i r' t e b hd
        simp only [CallRes.ret.injEq, Option.map_eq_none_iff] at h
        obtain ⟨rfl, rfl⟩ := h
        obtain ⟨h1, h2, h3, h4⟩ := decR_sound hd
        exact ⟨by omega, hne, by rw [h1, zeroR_type], h2, t, h3, h4⟩

/-- **C110** (partly, as above), errors: a call that fails with the text of the server has got an Rerror with this text. -/
theorem C110_remote_partial {m : TMsg} {spare bb : Bytes} {r : RMsg} {e : GoString} (h : callT m spare bb = .ret r (some (.remote e))) :
    5 ≤ bb.length ∧ bb.getD 4 0 = MT.Rerror ∧ r = zeroR m ∧ e.length < 2 ^ 16 ∧
    ∃ t, bb.drop 5 <+: (RMsg.error ⟨e⟩).body t ∧
      (bb.drop 5 = (RMsg.error ⟨e⟩).body t ∨ ((RMsg.error ⟨e⟩).body t).length - (bb.drop 5).length = e.length + 1) := by
  rw [callT_eq] at h
  split at h
  · cases h
  · rename_i h5
    split at h
    · rename_i he
      split at h
      · rename_i s t b hd
        simp only [CallRes.ret.injEq, Option.some.injEq, CallErr.remote.injEq] at h
        obtain ⟨rfl, rfl⟩ := h
        obtain ⟨h1, h2, h3, h4⟩ := decR_sound hd
        exact ⟨by omega, he, rfl, h2, t, h3, h4⟩
      · simp at h
      · cases h
    · split at h
      · cases h
      · rename_i r' t e' b hd
        cases e' <;> simp at h

/-- **C110** is false: the type of a reply is not looked at, other than that it is not Rerror.  What the server sends as any
other type, a call takes for the reply it expects. -/
theorem C110_counterexample (m : TMsg) (r : RMsg) (t : Tag) (ty : MType) (spare : Bytes) (hr : r.type = m.type + 1) (hf : r.Fits)
    (ht : ty ≠ MT.Rerror) : callT m spare ((r.packet t).set 4 ty) = .ret r none := by
  have hl := packetR_length r t
  have h1 : ((r.packet t).set 4 ty).getD 4 0 = ty := by
    rw [List.getD_eq_getElem?_getD, List.getElem?_set_self (by omega)]; rfl
  have h2 : ((r.packet t).set 4 ty).drop 5 = r.body t := by
    rw [List.drop_set_of_lt (by omega), packetR_drop]
  rw [callT_eq, if_neg (by rw [List.length_set]; omega), h1, if_neg ht, h2, decR_type (r' := r) (by rw [zeroR_type, hr]),
    (lawsR r).fwd hf]
  rfl

/-- a remove that is answered by the reply to a clunk, and one that is answered by a request, succeed -/
example : callT (.remove ⟨1⟩) [] ((RMsg.clunk {}).packet 3) = .ret (.remove {}) none ∧
    callT (.remove ⟨1⟩) [] [7, 0, 0, 0, 120, 3, 0] = .ret (.remove {}) none :=
  ⟨C110_counterexample (.remove ⟨1⟩) (.remove {}) 3 MT.Rclunk [] rfl trivial (by decide),
   C110_counterexample (.remove ⟨1⟩) (.remove {}) 3 MT.Tclunk [] rfl trivial (by decide)⟩

/-! ### C111 -/

theorem reply_payload (r : RMsg) (t : Tag) (hl : (r.packet t).length < 2 ^ 32) (spare : Bytes) :
    ¬ ∃ pos w, payloadAt (.inr r) = some (pos, w) ∧ pos < (r.body t).length ∧
      (r.body t).length - (pos + w) + spare.length < payloadCount (.inr r) (r.body t) := by
  rintro ⟨pos, w, hp, -, h⟩
  cases r <;> simp only [payloadAt, reduceCtorEq, Option.some.injEq, Prod.mk.injEq] at hp
  · rename_i p
    obtain ⟨rfl, rfl⟩ := hp
    have e1 : ((RMsg.stat p).body t).drop 2 = le 2 p.B.length ++ p.B := by
      simp only [RMsg.body, RMsg.fields]
      rw [List.drop_left' (by simp)]
    have e2 : (((RMsg.stat p).body t).drop 2).take 2 = le 2 p.B.length := by rw [e1]; simp
    have e3 : ((RMsg.stat p).body t).length = 4 + p.B.length := by simp [RMsg.body, RMsg.fields]; omega
    simp only [payloadCount, e2, seen, le_length, e3] at h
    have : leVal (le 2 p.B.length) ≤ p.B.length := by rw [leVal_le]; exact Nat.mod_le _ _
    simp at h
    omega
  · rename_i p
    obtain ⟨rfl, rfl⟩ := hp
    have e1 : ((RMsg.read p).body t).drop 2 = le 4 p.Data.length ++ p.Data := by
      simp only [RMsg.body, RMsg.fields]
      rw [List.drop_left' (by simp)]
    have e2 : (((RMsg.read p).body t).drop 2).take 4 = le 4 p.Data.length := by rw [e1]; simp
    have e3 : ((RMsg.read p).body t).length = 6 + p.Data.length := by simp [RMsg.body, RMsg.fields]; omega
    have e4 : List.drop 4 (List.take 2 ((RMsg.read p).body t) ++ [0, 0]) = [] := List.drop_eq_nil_of_le (by simp; omega)
    simp only [payloadCount, e2, seen, le_length, e3, e4] at h
    have : leVal (le 4 p.Data.length) ≤ p.Data.length := by rw [leVal_le]; exact Nat.mod_le _ _
    simp at h
    omega

theorem qids_length (l : List QID) : (l.map qid).flatten.length = 13 * l.length := by
  induction l with
  | nil => rfl
  | cons q l ih => simp [ih, qid] at *; omega

/-- **C111**, replies: the encoding of a reply with a part that is too long is never accepted. -/
theorem C111_replies (r : RMsg) (t : Tag) (hl : (r.packet t).length < 2 ^ 32) (hr : ¬ r.Fits) (pre spare : Bytes) :
    ∃ r' t' e b, decR r ⟨pre, r.body t, spare⟩ = .done r' t' (some e) b := by
  cases hd : decR r ⟨pre, r.body t, spare⟩ with
  | panic =>
    exact absurd ((C11_panic_iff (.inr r) ⟨pre, r.body t, spare⟩).1 (by simp [decAny, hd, Unm.map])) (reply_payload r t hl spare)
  | done r' t' e b =>
    cases e with
    | some e => exact ⟨_, _, _, _, rfl⟩
    | none =>
      exfalso
      obtain ⟨h1, h2, h3, -⟩ := (lawsR r).inv _ _ _ _ hd
      have h4 := tyR_type h1
      have h5 := h3.length_le
      cases r <;> simp only [RMsg.Fits, not_true_eq_false] at hr <;> cases r' <;> simp only [RMsg.type, Nat.reduceEqDiff] at h4 <;>
        simp only [RMsg.Fits, RMsg.body, RMsg.fields, str, List.length_append, le_length, qids_length] at h2 h5
      all_goals omega

theorem wire16_long {n : Nat} (h : ¬ n < 2 ^ 16) : wire16 n + 2 ^ 16 ≤ n := by unfold wire16; omega

theorem onWire_shorter (m : TMsg) (t : Tag) (hl : (m.packet t).length < 2 ^ 32) (hm : ¬ m.Fits) (hw : ∀ p, m ≠ .walk p) :
    m.onWire.fields.length < m.fields.length := by
  cases m <;> simp only [TMsg.Fits, not_true_eq_false] at hm
  · rename_i p
    have := wire16_long hm
    simp only [TMsg.onWire, TMsg.fields, str, List.length_append, le_length, length_cut]
    omega
  · rename_i p
    have h1 := leVal_lt2 (p.Uname.drop (wire16 p.Uname.length) ++ str p.Aname)
    have h2 : (textAt (p.Uname.drop (wire16 p.Uname.length) ++ str p.Aname)).length < 2 ^ 16 := by
      unfold textAt
      rw [List.length_take]
      omega
    simp only [TMsg.onWire, TMsg.fields, str, List.length_append, le_length, length_cut] at *
    by_cases h : p.Uname.length < 2 ^ 16
    · have := wire16_fit h
      omega
    · have := wire16_long h
      omega
  · exact absurd rfl (hw _)
  · rename_i p
    have := wire16_long hm
    simp only [TMsg.onWire, TMsg.fields, str, List.length_append, le_length, length_cut]
    omega
  · rename_i p
    have := wire16_long hm
    simp only [TMsg.onWire, TMsg.fields, List.length_append, le_length, length_cut]
    omega
  · simp [TMsg.packet, Spec.packet, TMsg.body, TMsg.fields] at hl
    omega

/-- **C111**, requests (partly: all but Twalk): the decoder of a request with a part that is too long always reports bytes left
over, beside the request `m.onWire`. -/
theorem C111_requests_partial (m : TMsg) (hl : ∀ t, (m.packet t).length < 2 ^ 32) (hm : ¬ m.Fits) (hw : ∀ p, m ≠ .walk p)
    (t : Tag) (pre spare : Bytes) :
    ∃ n b, 0 < n ∧ decT m ⟨pre, m.body t, spare⟩ = .done m.onWire t (some (.tooLong n)) b := by
  obtain ⟨r, hr⟩ := onWire_front m hw
  have hs := onWire_shorter m t (hl t) hm hw
  have hne : r ≠ [] := by
    rintro rfl
    rw [List.append_nil] at hr
    rw [hr] at hs
    omega
  have h := (lawsT m.onWire).trail (onWire_fits hl) pre r spare t hne
  have hb : m.body t = m.onWire.body t ++ r := by
    simp only [TMsg.body, hr, List.append_assoc]
  rw [← (same_type (onWire_type m)).2, hb]
  exact ⟨_, _, List.length_pos_iff.2 hne, h⟩

/-- **C111** is false for Twalk: a walk with the three names `long`, "" and "", where `long` has 2^16 bytes, is received, without
an error, as a walk with the names "", "x" and 65535 zero bytes. -/
theorem C111_counterexample (x : Byte) (fid newfid : FID) (t : Tag) (pre spare : Bytes) : ∃ long : GoString, ∃ zeros : GoString, ∃ b,
    long.length = 2 ^ 16 ∧ zeros.length = 65535 ∧
    decT (.walk ⟨fid, newfid, [long, [], []]⟩) ⟨pre, (TMsg.walk ⟨fid, newfid, [long, [], []]⟩).body t, spare⟩ =
      .done (.walk ⟨fid, newfid, [[], [x], zeros]⟩) t none b := by
  generalize hp : List.replicate 65531 (0 : Byte) = pad
  have hpad : pad.length = 65531 := by rw [← hp, List.length_replicate]
  have h1 : ([1, 0, x, 255, 255] ++ pad).length = 65536 := by simp [hpad]
  have h2 : (pad ++ [0, 0, 0, 0]).length = 65535 := by simp [hpad]
  have e : (TMsg.walk ⟨fid, newfid, [[1, 0, x, 255, 255] ++ pad, [], []]⟩).body t = (TMsg.walk ⟨fid, newfid, [[], [x], pad ++ [0, 0, 0, 0]]⟩).body t := by
    simp only [TMsg.body, TMsg.fields, List.map_cons, List.map_nil, List.flatten_cons, List.flatten_nil, str, h1, h2, List.length_cons, List.length_nil]
    have a : le 2 65536 = [0, 0] := by decide
    have b : le 2 65535 = [255, 255] := by decide
    have c : le 2 0 = [0, 0] := by decide
    have d : le 2 (0 + 1) = [1, 0] := by decide
    rw [a, b, c, d]
    simp
  have hf := (lawsT (.walk ⟨fid, newfid, [[], [x], pad ++ [0, 0, 0, 0]]⟩)).fwd (by simp [TMsg.Fits, hpad]) pre spare t
  rw [← e] at hf
  exact ⟨_, _, _, h1, h2, hf⟩

/-- **C111**, the client: a reply with a part that is too long makes the call fail with an error of the decoder. -/
theorem C111_calls (m : TMsg) (r : RMsg) (t : Tag) (hl : (r.packet t).length < 2 ^ 32) (hr : ¬ r.Fits) (ht : r.type = m.type + 1 ∨ r.type = 107)
    (spare : Bytes) : ∃ r' e, callT m spare (r.packet t) = .ret r' (some (.decode e)) := by
  obtain ⟨r', t', e, b, h⟩ := C111_replies r t hl hr [] spare
  have h7 := packetR_length r t
  rw [callT_eq, if_neg (by omega), packetR_type, packetR_drop]
  by_cases he : r.type = 107
  · have hty : r.ty = MT.Rerror := by simp [RMsg.ty, he, MT.Rerror]
    rw [if_pos hty, decR_type (r' := r) (by rw [he]; rfl), h]
    cases r' <;> exact ⟨_, _, rfl⟩
  · have hty : r.ty ≠ MT.Rerror := fun hc => he (tyR_type (r' := .error {}) hc)
    rw [if_neg hty, decR_type (r' := r) (by rw [zeroR_type]; rcases ht with h | h; exact h.symm; exact absurd h he), h]
    exact ⟨_, _, rfl⟩

/-- a version reply with a text of 2^16 bytes, a directory entry of 2^16 bytes and an attach with two names too long -/
example (s : GoString) (hs : s.length = 2 ^ 16) :
    (¬ (RMsg.version ⟨8192, s⟩).Fits ∧ ((RMsg.version ⟨8192, s⟩).packet 1).length < 2 ^ 32) ∧
    (¬ (RMsg.stat ⟨s⟩).Fits ∧ ((RMsg.stat ⟨s⟩).packet 1).length < 2 ^ 32) ∧
    (¬ (TMsg.attach ⟨1, 2, s, s⟩).Fits ∧ ((TMsg.attach ⟨1, 2, s, s⟩).packet 1).length < 2 ^ 32) := by
  refine ⟨⟨?_, ?_⟩, ⟨?_, ?_⟩, ?_, ?_⟩ <;>
    simp [RMsg.Fits, RMsg.packet, RMsg.body, RMsg.fields, TMsg.Fits, TMsg.packet, TMsg.body, TMsg.fields, Spec.packet, str, hs]

end Ninep.Client
