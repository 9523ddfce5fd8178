import Verif.Props.Codec

/-!
# Replies are unambiguous, too

C07 is about requests.  The same holds of replies, and no request is mistaken for a reply.
-/

namespace Ninep
open Spec

/-- what a reply is decoded with depends on its type only -/
theorem decR_same {m m' : RMsg} (h : m.type = m'.type) : decR m = decR m' := by
  cases m <;> cases m' <;> first | rfl | (simp [RMsg.type] at h)

/-- the type of a reply fits in a byte -/
theorem rtype_lt (m : RMsg) : m.type < 256 := by cases m <;> simp [RMsg.type]

/-- replies that fit and have the same packet are the same -/
theorem Spec.RMsg.packet_inj {m m' : RMsg} {t t' : Tag} (hm : m.Fits) (hm' : m'.Fits)
    (h : m.packet t = m'.packet t') : t = t' ∧ m = m' := by
  obtain ⟨hty, hb⟩ := packet_body_inj (rtype_lt m) (rtype_lt m') h
  have h1 := (lawsR m).fwd hm [] [] t
  have h2 := (lawsR m').fwd hm' [] [] t'
  rw [decR_same hty, hb, h2] at h1
  injection h1 with h1 h2
  exact ⟨h2.symm, h1.symm⟩

/-- a packet of a reply at the front of a stream ends at one place only -/
theorem Spec.RMsg.packet_prefix {m m' : RMsg} {t t' : Tag}
    (hl : (m.packet t).length < 2 ^ 32) (hl' : (m'.packet t').length < 2 ^ 32) (rest rest' : Bytes)
    (h : m.packet t ++ rest = m'.packet t' ++ rest') : m.packet t = m'.packet t' ∧ rest = rest' := by
  have a := (packet_header m.type (rtype_lt m) t m.fields hl).1
  have a' := (packet_header m'.type (rtype_lt m') t' m'.fields hl').1
  have e : (m.packet t).take 4 = (m'.packet t').take 4 := by
    have := congrArg (List.take 4) h
    rwa [List.take_append_of_le_length, List.take_append_of_le_length] at this
    · simp [RMsg.packet, Spec.packet]
    · simp [RMsg.packet, Spec.packet]
  have : (m.packet t).length = (m'.packet t').length := by
    show (Spec.packet m.type (le 2 t.toNat ++ m.fields)).length =
      (Spec.packet m'.type (le 2 t'.toNat ++ m'.fields)).length
    rw [← a, ← a']
    exact congrArg leVal e
  exact List.append_inj h this

/-- **C07** for replies: replies whose fields fit have the same bytes only if they and their tags are the same; a
request never has the bytes of a reply, whatever the two are; and a stream of replies can be split into replies in
one way only. -/
theorem C07_replies (b b' : Buffer) :
    (∀ m m' t t', m.Fits → m'.Fits → (encodeR b t m).bytes = (encodeR b' t' m').bytes → t = t' ∧ m = m') ∧
    (∀ m m' t t', (encodeT b t m).bytes ≠ (encodeR b' t' m').bytes) ∧
    (∀ ms ms' : List (Tag × RMsg),
      (∀ x ∈ ms, x.2.Fits ∧ (encodeR b x.1 x.2).bytes.length < 2 ^ 32) →
      (∀ x ∈ ms', x.2.Fits ∧ (encodeR b' x.1 x.2).bytes.length < 2 ^ 32) →
      (ms.map fun x => (encodeR b x.1 x.2).bytes).flatten =
        (ms'.map fun x => (encodeR b' x.1 x.2).bytes).flatten → ms = ms') := by
  simp only [C04_wire_layout]
  refine ⟨fun m m' t t' hm hm' h => RMsg.packet_inj hm hm' h, ?_, ?_⟩
  · intro m m' t t' h
    have := (packet_body_inj m.type_lt (rtype_lt m') h).1
    revert this
    cases m <;> cases m' <;> simp [TMsg.type, RMsg.type]
  intro ms
  induction ms with
  | nil =>
    intro ms' _ _ h
    cases ms' with
    | nil => rfl
    | cons x' ms' => simp [RMsg.packet, Spec.packet, le] at h
  | cons x ms ih =>
    intro ms' hms hms' h
    cases ms' with
    | nil => simp [RMsg.packet, Spec.packet, le] at h
    | cons x' ms' =>
      simp only [List.map_cons, List.flatten_cons] at h
      have hx := hms x (by simp)
      have hx' := hms' x' (by simp)
      obtain ⟨h1, h2⟩ := RMsg.packet_prefix hx.2 hx'.2 _ _ h
      obtain ⟨e1, e2⟩ := RMsg.packet_inj hx.1 hx'.1 h1
      have := ih ms' (fun y hy => hms y (by simp [hy])) (fun y hy => hms' y (by simp [hy])) h2
      rw [this, show x = x' from Prod.ext e1 e2]

/-- the hypotheses are met, e.g. by a read reply of two bytes -/
example : (RMsg.read { Data := [1, 2] }).Fits ∧ ((encodeR {} 3 (.read { Data := [1, 2] })).bytes.length < 2 ^ 32) := by
  rw [C04_wire_layout.2.1]
  simp [RMsg.Fits, RMsg.packet, Spec.packet, RMsg.body, RMsg.fields]
end Ninep
