import Verif.Props.Malformed
import Verif.Props.Remote
import Verif.Spec.Oversize

set_option linter.unusedSimpArgs false
set_option linter.unusedVariables false

/-
C109: calls with arguments that do not fit on the wire.  The generated encoders write the length of a string, a list of
names or a stat record modulo 2^16 (e.g. genout.go:116-119), and everything behind the length in full.
-/

namespace Ninep
open Spec Dec

/-- the data of a request never leads beyond its packet, however long the arguments are -/
theorem sent_payload (m : TMsg) (t : Tag) (hl : (m.packet t).length < 2 ^ 32) (spare : Bytes) :
    ¬ ∃ pos w, payloadAt (.inl m) = some (pos, w) ∧ pos < (m.body t).length ∧
      (m.body t).length - (pos + w) + spare.length < payloadCount (.inl m) (m.body t) := by
  rintro ⟨pos, w, hp, -, h⟩
  cases m <;> simp only [payloadAt, reduceCtorEq, Option.some.injEq, Prod.mk.injEq] at hp
  · rename_i p
    obtain ⟨rfl, rfl⟩ := hp
    have e1 : ((TMsg.wstat p).body t).drop 6 = le 2 p.B.length ++ p.B := by
      simp only [TMsg.body, TMsg.fields, ← List.append_assoc]
      rw [List.append_assoc, List.drop_left' (by simp)]
    have e2 : (((TMsg.wstat p).body t).drop 6).take 2 = le 2 p.B.length := by rw [e1]; simp
    have e3 : ((TMsg.wstat p).body t).length = 8 + p.B.length := by simp [TMsg.body, TMsg.fields]; omega
    simp only [payloadCount, e2, seen, le_length, e3] at h
    have : leVal (le 2 p.B.length) ≤ p.B.length := by rw [leVal_le]; exact Nat.mod_le _ _
    simp at h
    omega
  · rename_i p
    obtain ⟨rfl, rfl⟩ := hp
    have e1 : ((TMsg.write p).body t).drop 14 = le 4 p.Data.length ++ p.Data := by
      simp only [TMsg.body, TMsg.fields, ← List.append_assoc]
      rw [List.append_assoc, List.drop_left' (by simp)]
    have e2 : (((TMsg.write p).body t).drop 14).take 4 = le 4 p.Data.length := by rw [e1]; simp
    have e3 : ((TMsg.write p).body t).length = 18 + p.Data.length := by simp [TMsg.body, TMsg.fields]; omega
    simp only [payloadCount, e2, seen, le_length, e3] at h
    have : leVal (le 4 p.Data.length) ≤ p.Data.length := by rw [leVal_le]; exact Nat.mod_le _ _
    simp at h
    omega


theorem wire16_le (n : Nat) : wire16 n ≤ n := Nat.mod_le _ _
theorem wire16_lt (n : Nat) : wire16 n < 2 ^ 16 := Nat.mod_lt _ (by decide)
theorem wire16_fit {n : Nat} (h : n < 2 ^ 16) : wire16 n = n := Nat.mod_eq_of_lt h

theorem leVal_le2 (n : Nat) : leVal (le 2 n) = wire16 n := by rw [leVal_le]; rfl

theorem le2_wire16 (n : Nat) : le 2 (wire16 n) = le 2 n := by
  have h := le_leVal (le 2 n)
  rw [le_length, leVal_le2] at h
  exact h

theorem length_cut (s : Bytes) : (s.take (wire16 s.length)).length = wire16 s.length := by
  rw [List.length_take]; exact Nat.min_eq_left (wire16_le _)

/-- a string on the wire is the string that its length gives and the bytes cut off -/
theorem str_cut (s : GoString) : str s = str (s.take (wire16 s.length)) ++ s.drop (wire16 s.length) := by
  unfold str
  rw [length_cut, le2_wire16, List.append_assoc, List.take_append_drop]

theorem leVal_lt2 (b : Bytes) : leVal (b.take 2) < 2 ^ 16 := by
  have h := leVal_lt (b.take 2)
  have h2 : (b.take 2).length ≤ 2 := by simp; omega
  have : 256 ^ (b.take 2).length ≤ 256 ^ 2 := Nat.pow_le_pow_right (by decide) h2
  omega

/-- a string that is there in full -/
theorem textAt_spec {b : Bytes} (h : 2 + leVal (b.take 2) ≤ b.length) :
    (textAt b).length < 2 ^ 16 ∧ b = str (textAt b) ++ b.drop (2 + leVal (b.take 2)) := by
  have h1 : (textAt b).length = leVal (b.take 2) := by
    unfold textAt; rw [List.length_take, List.length_drop]; omega
  have h2 : le 2 (leVal (b.take 2)) = b.take 2 := by
    have := le_leVal (b.take 2)
    rwa [List.length_take, Nat.min_eq_left (by omega)] at this
  refine ⟨by rw [h1]; exact leVal_lt2 b, ?_⟩
  unfold str
  rw [h1, h2]
  unfold textAt
  rw [List.append_assoc, ← List.drop_drop, List.take_append_drop, List.take_append_drop]

theorem front_str_some {b w r : Bytes} (h : Kind.str.front b = some (w, r)) :
    (w.drop 2).length < 2 ^ 16 ∧ w = str (w.drop 2) ∧ b = w ++ r := by
  simp only [Kind.front] at h
  split at h
  · rename_i h1
    simp only [Option.some.injEq, Prod.mk.injEq] at h
    obtain ⟨rfl, rfl⟩ := h
    have h2 : (List.take (2 + leVal (b.take 2)) b).drop 2 = textAt b := by
      unfold textAt; rw [List.drop_take, Nat.add_sub_cancel_left]
    obtain ⟨g1, g2⟩ := textAt_spec h1.2
    rw [h2]
    refine ⟨g1, ?_, (List.take_append_drop _ _).symm⟩
    have : (str (textAt b)).length = 2 + leVal (b.take 2) := by
      have := congrArg List.length g2
      rw [List.length_append, List.length_drop] at this
      omega
    rw [← this] at g2 ⊢
    exact (congrArg (List.take _) g2).trans List.take_left
  · cases h

theorem textsAt_length (n : Nat) (b : Bytes) : (textsAt n b).length = n := by
  induction n generalizing b with
  | zero => rfl
  | succ n ih =>
    unfold textsAt
    split
    · simp
    · simp [ih]

theorem textsAt_fit (n : Nat) (b : Bytes) : ∀ s ∈ textsAt n b, s.length < 2 ^ 16 := by
  induction n generalizing b with
  | zero => intro s hs; cases hs
  | succ n ih =>
    intro s hs
    unfold textsAt at hs
    split at hs
    · rw [List.eq_of_mem_replicate hs]; decide
    · rename_i w r hf
      rcases List.mem_cons.1 hs with rfl | hs
      · exact (front_str_some hf).1
      · exact ih r s hs

theorem textsAt_fits {l : List GoString} (h : ∀ s ∈ l, s.length < 2 ^ 16) (r : Bytes) : textsAt l.length ((l.map str).flatten ++ r) = l := by
  induction l with
  | nil => rfl
  | cons s l ih =>
    simp only [List.length_cons, List.map_cons, List.flatten_cons, List.append_assoc]
    unfold textsAt
    rw [front_str s _ (h s (by simp))]
    simp only
    rw [ih fun x hx => h x (by simp [hx])]
    simp [str]

theorem onWire_type (m : TMsg) : m.onWire.type = m.type := by cases m <;> rfl

theorem onWire_fits {m : TMsg} (hl : ∀ t, (m.packet t).length < 2 ^ 32) : m.onWire.Fits := by
  cases m with
  | version p => show _ < _; simp only [length_cut]; exact wire16_lt _
  | attach p =>
    refine ⟨by simp only [length_cut]; exact wire16_lt _, ?_⟩
    simp only [textAt]
    have := leVal_lt2 (p.Uname.drop (wire16 p.Uname.length) ++ str p.Aname)
    rw [List.length_take]; omega
  | walk p => exact ⟨by simp only [textsAt_length]; exact wire16_lt _, textsAt_fit _ _⟩
  | create p => show _ < _; simp only [length_cut]; exact wire16_lt _
  | wstat p => show _ < _; simp only [length_cut]; exact wire16_lt _
  | write p =>
    have := hl 0
    simp [TMsg.packet, Spec.packet, TMsg.body, TMsg.fields] at this
    show p.Data.length < _
    omega
  | _ => trivial

/-- **C109**, the specification: exactly the requests that fit are on the wire what they are. -/
theorem C109_onWire {m : TMsg} (hl : ∀ t, (m.packet t).length < 2 ^ 32) : m.onWire = m ↔ m.Fits := by
  refine ⟨fun h => by rw [← h]; exact onWire_fits hl, fun h => ?_⟩
  cases m with
  | version p => have h : p.TVersion.length < _ := h; simp [TMsg.onWire, wire16_fit h]
  | attach p =>
    obtain ⟨h1, h2⟩ := h
    have : leVal ((str p.Aname).take 2) = p.Aname.length := by
      have : (str p.Aname).take 2 = le 2 p.Aname.length := by simp [str]
      rw [this, leVal_le2, wire16_fit h2]
    have h3 : textAt (str p.Aname) = p.Aname := by
      unfold textAt; rw [this]; simp [str]
    simp [TMsg.onWire, wire16_fit h1, h3]
  | walk p =>
    obtain ⟨h1, h2⟩ := h
    have := textsAt_fits h2 []
    rw [List.append_nil] at this
    simp only [TMsg.onWire, wire16_fit h1, this]
  | create p =>
    have h : p.Name.length < _ := h
    have e1 : leVal (le 4 p.CreatePerm.toNat) = p.CreatePerm.toNat := by
      rw [leVal_le]; exact Nat.mod_eq_of_lt p.CreatePerm.toNat_lt
    have e2 : leVal (le 1 p.Omode.toNat) = p.Omode.toNat := by
      rw [leVal_le]; exact Nat.mod_eq_of_lt p.Omode.toNat_lt
    have e3 : List.take 4 (le 4 p.CreatePerm.toNat ++ le 1 p.Omode.toNat) = le 4 p.CreatePerm.toNat := by simp
    have e4 : List.take 1 (List.drop 4 (le 4 p.CreatePerm.toNat ++ le 1 p.Omode.toNat)) = le 1 p.Omode.toNat := by
      rw [List.drop_left' (by simp), List.take_of_length_le (by simp)]
    simp only [TMsg.onWire, wire16_fit h, List.drop_length, List.nil_append, List.take_length, e3, e4, e1, e2, UInt32.ofNat_toNat,
      UInt8.ofNat_toNat]
  | wstat p => have h : p.B.length < _ := h; simp [TMsg.onWire, wire16_fit h]
  | _ => rfl

theorem leVal_ofNat32 {b : Bytes} (h : b.length = 4) : le 4 (UInt32.ofNat (leVal b)).toNat = b := by
  have h1 := leVal_lt b
  rw [h] at h1
  have h2 := le_leVal b
  rw [h] at h2
  rw [UInt32.toNat_ofNat', Nat.mod_eq_of_lt (by omega), h2]

theorem leVal_ofNat8 {b : Bytes} (h : b.length = 1) : le 1 (UInt8.ofNat (leVal b)).toNat = b := by
  have h1 := leVal_lt b
  rw [h] at h1
  have h2 := le_leVal b
  rw [h] at h2
  rw [UInt8.toNat_ofNat', Nat.mod_eq_of_lt (by omega), h2]

/-- all but the names of a walk: what is found is in front of what is sent -/
theorem onWire_front (m : TMsg) (hm : ∀ p, m ≠ .walk p) : ∃ r, m.fields = m.onWire.fields ++ r := by
  cases m with
  | version p =>
    refine ⟨p.TVersion.drop (wire16 p.TVersion.length), ?_⟩
    simp only [TMsg.fields, TMsg.onWire, List.append_assoc]
    rw [← str_cut]
  | attach p =>
    have hrest : 2 + leVal ((p.Uname.drop (wire16 p.Uname.length) ++ str p.Aname).take 2) ≤
        (p.Uname.drop (wire16 p.Uname.length) ++ str p.Aname).length := by
      by_cases h : p.Uname.length < 2 ^ 16
      · have e : (str p.Aname).take 2 = le 2 p.Aname.length := by simp [str]
        rw [wire16_fit h, List.drop_length, List.nil_append, e, leVal_le2]
        have := wire16_le p.Aname.length
        simp [str]
        omega
      · have h1 := leVal_lt2 (p.Uname.drop (wire16 p.Uname.length) ++ str p.Aname)
        have h2 : 2 ^ 16 ≤ p.Uname.length - wire16 p.Uname.length := by
          unfold wire16
          have := Nat.div_add_mod p.Uname.length (2 ^ 16)
          have : 1 ≤ p.Uname.length / 2 ^ 16 := (Nat.one_le_div_iff (by decide)).2 (by omega)
          omega
        simp only [List.length_append, List.length_drop, str, le_length] at *
        omega
    obtain ⟨-, h2⟩ := textAt_spec hrest
    generalize hr : p.Uname.drop (wire16 p.Uname.length) ++ str p.Aname = rest at h2
    refine ⟨rest.drop (2 + leVal (rest.take 2)), ?_⟩
    simp only [TMsg.fields, TMsg.onWire, hr, List.append_assoc]
    rw [← h2, ← hr, ← List.append_assoc (str _), ← str_cut]
  | walk p => exact absurd rfl (hm p)
  | create p =>
    have hlen : 5 ≤ (p.Name.drop (wire16 p.Name.length) ++ le 4 p.CreatePerm.toNat ++ le 1 p.Omode.toNat).length := by simp
    generalize hr : p.Name.drop (wire16 p.Name.length) ++ le 4 p.CreatePerm.toNat ++ le 1 p.Omode.toNat = rest at hlen
    refine ⟨rest.drop 5, ?_⟩
    simp only [TMsg.fields, TMsg.onWire, hr, List.append_assoc]
    rw [leVal_ofNat32 (by simp; omega), leVal_ofNat8 (by simp; omega)]
    congr 1
    have e : rest = rest.take 4 ++ ((rest.drop 4).take 1 ++ rest.drop 5) := by
      have : rest.drop 5 = (rest.drop 4).drop 1 := by rw [List.drop_drop]
      rw [this, List.take_append_drop, List.take_append_drop]
    rw [← e, ← hr, str_cut p.Name]
    simp only [List.append_assoc]
  | wstat p =>
    refine ⟨p.B.drop (wire16 p.B.length), ?_⟩
    simp only [TMsg.fields, TMsg.onWire, List.append_assoc]
    rw [length_cut, le2_wire16, List.take_append_drop]
  | _ => exact ⟨[], by simp [TMsg.onWire]⟩

theorem str_zero {s : GoString} (hs : s.length < 2 ^ 16) (h : ∀ x ∈ str s, x = 0) : s = [] := by
  have h1 : ∀ b : Bytes, (∀ x ∈ b, x = 0) → leVal b = 0 := by
    intro b hb
    induction b with
    | nil => rfl
    | cons x b ih =>
      rw [leVal, ih fun y hy => hb y (by simp [hy]), hb x (by simp)]
      rfl
  have h2 := h1 (le 2 s.length) fun x hx => h x (by simp [str, hx])
  rw [leVal_le2, wire16_fit hs] at h2
  exact List.length_eq_zero_iff.1 h2

/-- the strings made of any bytes -/
theorem texts_made (l : List GoString) (hl : ∀ s ∈ l, s.length < 2 ^ 16) (b : Bytes)
    (hw : (l.map str).take ((Layout.strs l.length).wholes b).1.length = ((Layout.strs l.length).wholes b).1)
    (he : ((Layout.strs l.length).wholes b).2.2 = some .str → ∀ x ∈ ((l.map str).drop ((Layout.strs l.length).wholes b).1.length).flatten, x = 0) :
    l = textsAt l.length b := by
  induction l generalizing b with
  | nil => rfl
  | cons s l ih =>
    simp only [List.length_cons, Layout.strs, Layout.wholes] at hw he
    rw [List.length_cons]
    unfold textsAt
    cases hf : Kind.str.front b with
    | none =>
      rw [hf] at he
      have he := he rfl
      simp only [List.length_nil, List.drop_zero] at he
      simp only
      refine List.eq_replicate_of_mem (a := []) ?_ |>.trans (by simp)
      intro a ha
      refine str_zero (hl a ha) fun x hx => he x ?_
      exact List.mem_flatten.2 ⟨_, List.mem_map.2 ⟨a, ha, rfl⟩, hx⟩
    | some w =>
      obtain ⟨w, r⟩ := w
      rw [hf] at hw he
      simp only [List.length_cons, List.map_cons, List.take_succ_cons, List.cons.injEq, List.drop_succ_cons] at hw he
      simp only
      rw [← ih (fun x hx => hl x (by simp [hx])) r hw.2 he, ← hw.1]
      simp [str]

theorem made_onWire {m m' : TMsg} (hl : ∀ t, (m.packet t).length < 2 ^ 32) (ht : m'.type = m.type) (h : MadeOf m' m.fields) : m' = m.onWire := by
  have hnot : (∀ p, m ≠ .walk p) → m' = m.onWire := by
    intro hnw
    obtain ⟨r, hr⟩ := onWire_front _ hnw
    rw [hr] at h
    exact C108_proper (onWire_fits hl) (by rw [onWire_type, ht]) h
  cases m with
  | walk p =>
    cases m' <;> simp only [TMsg.type, Nat.reduceEqDiff] at ht
    rename_i p'
    obtain ⟨hn, hfit⟩ : p'.Paths.length < _ ∧ _ := h.fits
    have hw := h.whole
    have he := h.empty
    simp only [TMsg.layout, TMsg.fields, TMsg.parts, List.append_assoc, Layout.wholes, front_num, List.length_cons, List.take_succ_cons,
      List.cons.injEq, List.drop_succ_cons] at hw he
    obtain ⟨e1, e2, e3, e4⟩ := hw
    have hlen : p'.Paths.length = leVal (le 2 p.Paths.length) := by
      rw [← e3, leVal_le2, wire16_fit hn]
    rw [← hlen] at e4 he
    have hp := texts_made _ hfit _ e4 he
    have f1 : p'.SFID = p.SFID := by
      have := congrArg leVal e1
      rw [leVal_le, leVal_le] at this
      have a := p'.SFID.toNat_lt
      have b := p.SFID.toNat_lt
      exact UInt32.toNat_inj.1 (by omega)
    have f2 : p'.NewFID = p.NewFID := by
      have := congrArg leVal e2
      rw [leVal_le, leVal_le] at this
      have a := p'.NewFID.toNat_lt
      have b := p.NewFID.toNat_lt
      exact UInt32.toNat_inj.1 (by omega)
    rw [hlen, leVal_le2] at hp
    cases p'
    simp only [TMsg.onWire]
    simp only at hp f1 f2
    rw [f1, f2, ← hp]
  | _ => exact hnot (by simp)


/-- a packet with the type of `m` and `b` behind it has the effect and the reply of `m`, whatever the file server, its state
and the memory around the packet are -/
def ActsAs (m : TMsg) (t : Tag) (b : Bytes) : Prop :=
  ∀ (σ : Type) (ns : NineServer σ) (x : σ) (v : Bool) (pre spare : Bytes), v = true ∨ m.ty = MT.Tversion →
    match answer ns t m x with
    | none => dispatch ns ⟨x, v⟩ ⟨pre, b, spare⟩ m.ty = .panic
    | some (x', p) => ∃ b', dispatch ns ⟨x, v⟩ ⟨pre, b, spare⟩ m.ty = .done ⟨x', true⟩ b' ∧ b'.bytes = p

theorem ty_eq (m m' : TMsg) (h : m'.type = m.type) : m'.ty = m.ty := by
  cases m <;> cases m' <;> first | rfl | (simp [TMsg.type] at h)

/-- **C109** (partly: the request carried out is the one of the call only if that fits).  Whatever the arguments of a call
are, as long as the packet has a size at all: the packet that the client sends is carried out as the request `m.onWire`,
which is the request of the call if and only if the arguments fit (`C109_onWire`).  In particular the server does not
crash and the client is not told. -/
theorem C109_acts_partial (m : TMsg) (t : Tag) (hl : ∀ t, (m.packet t).length < 2 ^ 32) :
    (m.packet t).getD 4 0 = m.onWire.ty ∧ ActsAs m.onWire t ((m.packet t).drop 5) := by
  obtain ⟨-, h2, h3⟩ := packet_framing m t (hl t)
  have hty := ty_eq m m.onWire (onWire_type m)
  refine ⟨by rw [h2, hty], fun σ ns x v pre spare hv => ?_⟩
  rw [h3]
  have hb : m.body t = le 2 t.toNat ++ m.fields := rfl
  have htag : tagOf (m.body t) = t := by rw [hb]; exact tagOf_le _ _
  have hdrop : (m.body t).drop 2 = m.fields := by rw [hb]; exact List.drop_left' (by simp)
  rcases C108_acts m pre (m.body t) spare (by rw [hb]; simp) with ⟨hp, -⟩ | ⟨m', h1, h4, h5⟩
  · exact absurd hp (sent_payload m t (hl t) spare)
  · rw [hdrop] at h4
    rw [made_onWire hl h1 h4, htag] at h5
    rw [hty] at hv ⊢
    exact h5 σ ns x v hv

/-- **C109** is false: for every name, permissions and mode there is a longer name with which a create that asks for any
other permissions and mode is carried out as a create of the shorter name with these. -/
theorem C109_counterexample (fid : FID) (name : GoString) (hn : name.length < 2 ^ 16) (perm perm0 : Perm) (mode mode0 : Mode) :
    ∃ long, long.length = name.length + 2 ^ 16 ∧ ∀ t, ActsAs (.create ⟨fid, name, perm, mode⟩) t
      (((TMsg.create ⟨fid, long, perm0, mode0⟩).packet t).drop 5) := by
  let pad : Bytes := List.replicate 65531 0
  have hpad : pad.length = 65531 := List.length_replicate
  generalize pad = pad at hpad
  refine ⟨name ++ (le 4 perm.toNat ++ (le 1 mode.toNat ++ pad)), by simp [hpad], fun t => ?_⟩
  have hlen : (name ++ (le 4 perm.toNat ++ (le 1 mode.toNat ++ pad))).length = name.length + 65536 := by simp [hpad]
  have hw : wire16 (name.length + 65536) = name.length := by unfold wire16; omega
  have e1 : leVal (le 4 perm.toNat) = perm.toNat := by rw [leVal_le]; exact Nat.mod_eq_of_lt perm.toNat_lt
  have e2 : leVal (le 1 mode.toNat) = mode.toNat := by rw [leVal_le]; exact Nat.mod_eq_of_lt mode.toNat_lt
  have h := (C109_acts_partial (.create ⟨fid, name ++ (le 4 perm.toNat ++ (le 1 mode.toNat ++ pad)), perm0, mode0⟩) t (by
    intro t
    simp [TMsg.packet, Spec.packet, TMsg.body, TMsg.fields, str, hpad]
    omega)).2
  have e : (TMsg.create ⟨fid, name ++ (le 4 perm.toNat ++ (le 1 mode.toNat ++ pad)), perm0, mode0⟩).onWire = .create ⟨fid, name, perm, mode⟩ := by
    simp only [TMsg.onWire, hlen, hw, List.take_left, List.drop_left, List.append_assoc]
    rw [List.take_left' (by simp), List.drop_left' (by simp), List.take_left' (by simp), e1, e2, UInt32.ofNat_toNat, UInt8.ofNat_toNat]
  rwa [e] at h

/-- the same for the two names of an attach -/
theorem C109_counterexample_attach (fid afid : FID) (uname aname aname0 : GoString) (hu : uname.length < 2 ^ 16) (ha : aname.length < 65535) :
    ∃ long, long.length = uname.length + 2 ^ 16 ∧ (TMsg.attach ⟨fid, afid, long, aname0⟩).onWire = .attach ⟨fid, afid, uname, aname⟩ := by
  generalize hp : List.replicate (65534 - aname.length) (0 : Byte) = pad
  have hpad : pad.length = 65534 - aname.length := by rw [← hp, List.length_replicate]
  have hlen : (uname ++ (str aname ++ pad)).length = uname.length + 65536 := by simp [hpad, str]; omega
  have hw : wire16 (uname.length + 65536) = uname.length := by unfold wire16; omega
  refine ⟨uname ++ (str aname ++ pad), hlen, ?_⟩
  have e : ∀ r, textAt (str aname ++ r) = aname := by
    intro r
    have : (str aname ++ r).take 2 = le 2 aname.length := by simp [str]
    unfold textAt
    rw [this, leVal_le2, wire16_fit (by omega)]
    simp [str]
  simp only [TMsg.onWire, hlen, hw, List.take_left, List.drop_left, List.append_assoc, e]

/-- a walk to one name of 2^16 + 2 bytes that begins with two dots is a walk to the directory above -/
example (r : Bytes) (hr : r.length = 2 ^ 16) : (TMsg.walk ⟨1, 2, [[46, 46] ++ r]⟩).onWire = .walk ⟨1, 2, [[46, 46]]⟩ ∧
    ∀ t, ((TMsg.walk ⟨1, 2, [[46, 46] ++ r]⟩).packet t).length < 2 ^ 32 := by
  have h1 : ([46, 46] ++ r).length = 65538 := by simp [hr]
  have h2 : Kind.str.front (str ([46, 46] ++ r)) = some (str [46, 46], r) := by
    rw [str_cut, h1]
    exact front_str [46, 46] r (by decide)
  refine ⟨?_, fun t => by simp [TMsg.packet, Spec.packet, TMsg.body, TMsg.fields, str, hr]⟩
  simp only [TMsg.onWire, List.length_cons, List.length_nil, List.map_cons, List.map_nil, List.flatten_cons, List.flatten_nil, List.append_nil]
  show TMsg.walk ⟨1, 2, textsAt 1 (str ([46, 46] ++ r))⟩ = _
  rw [textsAt, h2]
  rfl

end Ninep

namespace Ninep.Client
open Spec
variable {σ : Type}

/-- what is on the wire of the calls made so far is in `P`, and their packets have a size -/
def CallsSized (P : TMsg → Prop) (s : State) : Prop := ∀ c m, s.msg c = some m → P m.onWire ∧ ∀ t, (m.packet t).length < 2 ^ 32

theorem serve_onWire {ns : NineServer σ} {m : TMsg} (t : Tag) {srv srv' : Server σ} {spare : Bytes} {b : Buffer}
    (hl : ∀ t, (m.packet t).length < 2 ^ 32) (hv : srv.Versioned = true)
    (hd : dispatch ns srv ⟨[], (m.packet t).drop 5, spare⟩ ((m.packet t).getD 4 0) = .done srv' b) :
    srv'.Versioned = true ∧
    ((∃ r, call ns m.onWire srv.ns = .ok srv'.ns r ∧ b.bytes = r.packet t) ∨
     (∃ e, call ns m.onWire srv.ns = .err srv'.ns e ∧ b.bytes = (RMsg.error ⟨e⟩).packet t)) := by
  obtain ⟨h1, h2⟩ := C109_acts_partial m t hl
  rw [h1] at hd
  obtain ⟨x, v⟩ := srv
  have := h2 σ ns x v [] spare (.inl hv)
  unfold answer at this
  revert this
  cases hc : call ns m.onWire x with
  | panic => intro this; dsimp only at this; rw [this] at hd; cases hd
  | ok x' r =>
    rintro ⟨b', g1, g2⟩
    rw [g1] at hd
    cases hd
    exact ⟨rfl, .inl ⟨r, rfl, g2⟩⟩
  | err x' e =>
    rintro ⟨b', g1, g2⟩
    rw [g1] at hd
    cases hd
    exact ⟨rfl, .inr ⟨e, rfl, g2⟩⟩

structure WireInv (ns : NineServer σ) (x0 : σ) (s : Sys σ) : Prop where
  inv : Inv s.cl
  open_ : Open s.cl
  versioned : s.srv.Versioned = true
  fifo : s.cl.written = s.cl.replied.map (fun r => (r.1, r.2.1)) ++ s.cl.wire
  hist : ∃ h : List Entry, s.cl.replied = h.map Entry.replied ∧ (∀ e ∈ h, s.cl.msg e.call = some e.msg) ∧
    runCalls ns (h.map fun e => e.msg.onWire) x0 = some (s.srv.ns, h.map Entry.out) ∧ ∀ e ∈ h, GoodRes e.msg e.out

/-- a step of the whole system is a step of the client with an abiding peer -/
theorem wire_step {P : TMsg → Prop} {ns : NineServer σ} (hns : Modest P ns) {x0 : σ} {s s' : Sys σ} {l : Label} (h : WireInv ns x0 s)
    (hf : CallsSized P s'.cl) (hs : SysStep ns l s s') : Step true l s.cl s'.cl ∧ Serving l ∧ WireInv ns x0 s' := by
  cases hs with
  | client _ cl cl' srv hl hst =>
    have hsv : Serving l := by cases l <;> simp [ClientSide, Serving] at hl ⊢
    refine ⟨hst, hsv, inv_step (serving_abiding l hsv) h.inv hst, open_step hsv h.inv h.open_ hst, h.versioned, ?_, ?_⟩
    · have hfifo := h.fifo
      cases hst <;> first | exact hl.elim | exact hfifo | skip
      dsimp only at hfifo ⊢
      rw [hfifo, List.append_assoc]
    · obtain ⟨hh, h1, h2, h3⟩ := h.hist
      refine ⟨hh, ?_, fun e he => msg_step h.inv hst (h2 e he), h3⟩
      rw [← h1]
      cases hst <;> first | exact hl.elim | rfl
  | serve cl srv srv' c q y spare b hw hd =>
    obtain ⟨m, t, hlegal, hm, hq⟩ := h.inv.wire (c, q) (by simp [hw])
    dsimp only at hm hq
    subst hq
    obtain ⟨hmP, hml⟩ := hf c m hm
    have hmf := onWire_fits hml
    obtain ⟨hv', hcase⟩ := serve_onWire t hml h.versioned hd
    have hgood : ∃ out, GoodRes m out ∧ b.bytes = asPacket t out ∧
        (∀ outs a, runCalls ns a x0 = some (srv.ns, outs) → runCalls ns (a ++ [m.onWire]) x0 = some (srv'.ns, outs ++ [out])) ∧
        b.bytes.length = pktLen b.bytes ∧ tagField b.bytes = t.toNat := by
      rcases hcase with ⟨r, hc, hb⟩ | ⟨e, hc, hb⟩
      · have hmod := (hns m.onWire srv.ns hmP hmf).1 _ _ hc
        have hty : r.type = m.type + 1 := by
          exact (call_type ns m.onWire srv.ns _ _ hc).trans (by rw [onWire_type])
        refine ⟨.ok r, ⟨hty, hmod.1⟩, hb, fun outs a ha => (runCalls_append ns a m.onWire x0 _ outs ha).1 _ _ hc, ?_, ?_⟩
        · rw [hb]; exact packetR_framing r t (hmod.2 t)
        · rw [hb]; exact tagField_packetR r t
      · have hmod := (hns m.onWire srv.ns hmP hmf).2 _ _ hc
        refine ⟨.error e, hmod, hb, fun outs a ha => (runCalls_append ns a m.onWire x0 _ outs ha).2 _ _ hc, ?_, ?_⟩
        · rw [hb]; exact packetR_framing _ t (error_length e t hmod)
        · rw [hb]; exact tagField_packetR _ t
    obtain ⟨out, hg, hbo, hrun, hlen, htag⟩ := hgood
    have hst : Step true .reply cl _ := Step.reply cl [] y c (m.packet t) b.bytes hw hlen
      (by rw [htag, tagField_packet]) h.open_.closed
    refine ⟨hst, trivial, inv_step (l := .reply) trivial h.inv hst, open_step (l := .reply) trivial h.inv h.open_ hst, hv', ?_, ?_⟩
    · have hfifo := h.fifo
      dsimp only at hfifo ⊢
      rw [hfifo, hw]
      simp
    · obtain ⟨hh, h1, h2, h3, h4⟩ := h.hist
      refine ⟨hh ++ [⟨c, t, m, out⟩], ?_, ?_, ?_, ?_⟩
      · dsimp only at h1 ⊢
        rw [h1, hbo]
        simp [Entry.replied]
      · intro e he
        rcases List.mem_append.1 he with he | he
        · exact h2 e he
        · rw [List.mem_singleton.1 he]; exact hm
      · simpa using hrun _ _ h3
      · intro e he
        rcases List.mem_append.1 he with he | he
        · exact h4 e he
        · rw [List.mem_singleton.1 he]; exact hg

/-- everything that is known about an execution of the whole system -/
theorem wire_exec {P : TMsg → Prop} {ns : NineServer σ} (hns : Modest P ns) {x0 : σ} {s s' : Sys σ} (h : WireInv ns x0 s) {L : Label → Prop}
    (he : SysExec ns L s s') (hf : CallsSized P s'.cl) :
    WireInv ns x0 s' ∧ Exec true (fun l => L l ∧ Serving l) s.cl s'.cl := by
  induction he with
  | refl => exact ⟨h, Exec.refl _⟩
  | step a b l he hl hal hst ih =>
    have hfr := (fresh_exec (fun c hc => h.inv.idle c hc) he).1
    obtain ⟨h1, h2⟩ := ih fun c m hm => hf c m ((fresh_step hfr hst).2 c m hm)
    obtain ⟨g1, g2, g3⟩ := wire_step hns h1 hf hst
    exact ⟨g3, Exec.step _ _ _ l h2 ⟨hl, g2⟩ hal g1⟩

theorem wireInv_init (ns : NineServer σ) (x0 : σ) : WireInv ns x0 ⟨init, ⟨x0, true⟩⟩ :=
  ⟨inv_init, open_init, rfl, rfl, [], rfl, by simp, rfl, by simp⟩

/-- **C109** (partly, as above), the whole system: whatever the arguments of the calls are, in every execution of any number
of concurrent callers, the client and the server the file server has been called, one after the other in the order in
which the requests were written, with what is on the wire of the requests, and every call that has returned has
returned the result or error of this.  (C36 is the case of requests that fit.) -/
theorem C109_remote_partial (P : TMsg → Prop) (ns : NineServer σ) (hns : Modest P ns) (x0 : σ) (s : Sys σ)
    (he : SysExec ns everything ⟨init, ⟨x0, true⟩⟩ s) (hf : CallsSized P s.cl) :
    (order s).Nodup ∧ order s <+: s.cl.written.map Prod.fst ∧
    ∃ (ms : List TMsg) (outs : List (Except GoString RMsg)), (order s).map s.cl.msg = ms.map some ∧ runCalls ns (ms.map TMsg.onWire) x0 = some (s.srv.ns, outs) ∧
      ∀ c b, s.cl.phase c = .done b → ∃ (i : Nat) (m : TMsg) (r : Except GoString RMsg), (order s)[i]? = some c ∧ ms[i]? = some m ∧ outs[i]? = some r ∧
        ∀ spare, callT m spare b = asCall m r := by
  obtain ⟨hi, hex⟩ := wire_exec hns (wireInv_init ns x0) he hf
  have hserv : Exec true Serving init s.cl := by
    have : ∀ a b, Exec true (fun l => everything l ∧ Serving l) a b → Exec true Serving a b := by
      intro a b h
      induction h with
      | refl => exact Exec.refl _
      | step a b l _ hl hal hst ih => exact Exec.step _ _ _ l ih hl.2 hal hst
    exact this _ _ hex
  refine ⟨(C28_right_reply s.cl hserv).2.2, ?_, ?_⟩
  · rw [hi.fifo, order]
    simp [Function.comp_def]
  · obtain ⟨h, h1, h2, h3, h4⟩ := hi.hist
    have hord : order s = h.map Entry.call := by
      rw [order, h1]; simp [Function.comp_def, Entry.replied]
    refine ⟨h.map Entry.msg, h.map Entry.out, ?_, by simpa [Function.comp_def] using h3, ?_⟩
    · rw [hord, List.map_map, List.map_map]
      exact List.map_congr_left fun e he => h2 e he
    · intro c b hc
      obtain ⟨q, hq⟩ := hi.inv.done c b hc
      rw [h1] at hq
      obtain ⟨e, he, heq⟩ := List.mem_map.1 hq
      obtain ⟨i, hi', hie⟩ := List.getElem_of_mem he
      have hie : h[i]? = some e := by rw [List.getElem?_eq_getElem hi', hie]
      simp only [Entry.replied, Prod.mk.injEq] at heq
      refine ⟨i, e.msg, e.out, by rw [hord]; simp [hie, heq.1], by simp [hie], by simp [hie], fun spare => ?_⟩
      have hg := h4 e he
      rw [← heq.2.2]
      cases ho : e.out with
      | ok r =>
        rw [ho] at hg
        exact (C35_call_results e.msg spare e.tag).1 r hg.1 hg.2
      | error x =>
        rw [ho] at hg
        exact (C35_call_results e.msg spare e.tag).2 x hg

/-- **C109** (partly, as above), progress: if the methods of the file server return, every call returns: there is no infinite
execution without new calls, and when nothing can go on any more all calls have returned. -/
theorem C109_calls_return_partial (P : TMsg → Prop) (ns : NineServer σ) (hns : Modest P ns) (hnp : ∀ m x, P m → call ns m x ≠ .panic) (x0 : σ) (s : Sys σ)
    (he : SysExec ns everything ⟨init, ⟨x0, true⟩⟩ s) (hf : CallsSized P s.cl) (ht : s.cl.taken.length < 65534) :
    (¬ ∃ f : Nat → Sys σ, f 0 = s ∧ ∀ n, ∃ l, sysSettling l ∧ SysStep ns l (f n) (f (n + 1))) ∧
    ((∀ l s', sysSettling l → ¬ SysStep ns l s s') → ∀ c, s.cl.phase c ≠ .idle → ∃ b, s.cl.phase c = .done b) := by
  refine ⟨?_, ?_⟩
  · rintro ⟨f, h0, hf⟩
    have : ∀ n, work (f n).cl + n ≤ work (f 0).cl := by
      intro n
      induction n with
      | zero => simp
      | succ n ih =>
        obtain ⟨l, hl, hst⟩ := hf n
        have := sys_work hl hst
        omega
    have := this (work (f 0).cl + 1)
    omega
  · intro hno c hc
    obtain ⟨hi, hex⟩ := wire_exec hns (wireInv_init ns x0) he hf
    have hstuck : Stuck s.cl := by
      intro l s' hl hst
      by_cases hcl : ClientSide l
      · exact hno l ⟨s', s.srv⟩ hl (SysStep.client l s.cl s' s.srv hcl hst)
      · have hlr : l = .reply := by
          revert hl hcl
          cases l <;> simp [Internal, ClientSide]
        subst hlr
        have hne : s.cl.wire ≠ [] := by cases hst with | reply _ x y c q p h1 => simp [h1]
        match hw : s.cl.wire, hne with
        | (d, q) :: y, _ =>
          obtain ⟨m, t, -, hm, hq⟩ := hi.inv.wire (d, q) (by simp [hw])
          dsimp only at hm hq
          subst hq
          obtain ⟨hmP, hml⟩ := hf d m hm
          cases hd : dispatch ns s.srv ⟨[], (m.packet t).drop 5, []⟩ ((m.packet t).getD 4 0) with
          | done srv' b => exact hno .reply _ trivial (SysStep.serve s.cl s.srv srv' d _ y [] b hw hd)
          | panic =>
            obtain ⟨g1, g2⟩ := C109_acts_partial m t hml
            have g3 := g2 σ ns s.srv.ns s.srv.Versioned [] [] (.inl hi.versioned)
            rw [g1] at hd
            unfold answer at g3
            have g4 : dispatch ns ⟨s.srv.ns, s.srv.Versioned⟩ ⟨[], (m.packet t).drop 5, []⟩ m.onWire.ty = .panic := hd
            cases hcall : call ns m.onWire s.srv.ns with
            | panic => exact hnp _ _ hmP hcall
            | ok x r => rw [hcall] at g3; obtain ⟨b', g5, -⟩ := g3; rw [g4] at g5; cases g5
            | err x r => rw [hcall] at g3; obtain ⟨b', g5, -⟩ := g3; rw [g4] at g5; cases g5
    have hr : s.cl.recv = .idle := by
      rcases stuck_recv hi.inv hstuck with h | h
      · exact h
      · exact absurd h hi.open_.recv
    have hq := stuck_all hi.inv hstuck hr hi.open_.reader ht
    rcases quiet_calls hi.inv hr hq c with h | h
    · exact absurd h hc
    · exact h

/-- a call by a lone caller is answered -/
theorem wire_settles (P : TMsg → Prop) (ns : NineServer σ) (hns : Modest P ns) (x0 : σ) (n : Nat) (s : Sys σ) (hn : work s.cl = n)
    (he : SysExec ns everything ⟨init, ⟨x0, true⟩⟩ s) (hf : CallsSized P s.cl) :
    ∃ s', SysExec ns sysSettling s s' ∧ s'.cl.msg = s.cl.msg ∧ s'.cl.taken = s.cl.taken ∧
      ∀ l s'', sysSettling l → ¬ SysStep ns l s' s'' := by
  induction n using Nat.strongRecOn generalizing s with
  | ind n ih =>
    by_cases h : ∃ l s', sysSettling l ∧ SysStep ns l s s'
    · obtain ⟨l, s1, hl, hst⟩ := h
      have hal : Alive s.cl := ((wire_exec hns (wireInv_init ns x0) he hf).1).open_.recv
      have hmsg : s1.cl.msg = s.cl.msg ∧ s1.cl.taken = s.cl.taken := by
        cases hst with
        | serve => exact ⟨rfl, rfl⟩
        | client _ cl cl' srv _ hst => cases hst <;> first | exact hl.elim | exact ⟨rfl, rfl⟩
      obtain ⟨s2, h1, h2, h3, h4⟩ := ih (work s1.cl) (by rw [← hn]; exact sys_work hl hst) s1 rfl
        (SysExec.step _ _ _ l he trivial hal hst) (by unfold CallsSized; rw [hmsg.1]; exact hf)
      refine ⟨s2, ?_, h2.trans hmsg.1, h3.trans hmsg.2, h4⟩
      have h0 : SysExec ns sysSettling s s1 := SysExec.step s s s1 l (SysExec.refl s) hl hal hst
      clear h4 h2 h3
      induction h1 with
      | refl => exact h0
      | step a b l' _ hl' ha hab ih' => exact SysExec.step s a b l' ih' hl' ha hab
    · exact ⟨s, SysExec.refl s, rfl, rfl, fun l s' hl hst => h ⟨l, s', hl, hst⟩⟩

/-- C109: a call with a name of 2^16 bytes to `countNS` through client and server that has returned -/
example (long : GoString) (hlong : long.length = 2 ^ 16) : ∃ s b, SysExec countNS everything ⟨init, ⟨0, true⟩⟩ s ∧ CallsSized (fun _ => True) s.cl ∧ s.cl.phase 0 = .done b ∧
    ∃ m, s.cl.msg 0 = some m ∧ ¬ m.Fits := by
  have e1 : SysExec countNS everything ⟨init, ⟨0, true⟩⟩ ⟨_, ⟨0, true⟩⟩ :=
    SysExec.step _ _ _ .call (SysExec.refl _) trivial (by simp [Alive, init])
      (SysStep.client .call init _ ⟨0, true⟩ trivial (Step.call init 0 (.create { OFID := 7, Name := long }) rfl))
  have hf : CallsSized (fun _ => True) { init with
      phase := upd init.phase 0 .sending
      sending := 0 :: init.sending
      msg := upd init.msg 0 (some (.create { OFID := 7, Name := long }))
      buf := upd init.buf 0 (encodeT {} 0 (.create { OFID := 7, Name := long })).bytes } := by
    intro c m hm
    by_cases h : c = 0
    · subst h
      simp [upd] at hm
      subst hm
      simp [TMsg.packet, Spec.packet, TMsg.body, TMsg.fields, str, hlong]
    · simp [upd, h, init] at hm
  obtain ⟨s, h1, h2, h3, h4⟩ := wire_settles _ countNS countNS_modest 0 _ _ rfl e1 hf
  have hfs : CallsSized (fun _ => True) s.cl := by unfold CallsSized; rw [h2]; exact hf
  have hes := sysExec_trans e1 h1
  have hnp : ∀ m x, call countNS m x ≠ .panic := by intro m x; cases m <;> simp [call, countNS, mapRes]
  have := (C109_calls_return_partial _ countNS countNS_modest (fun m x _ => hnp m x) 0 s hes hfs (by rw [h3]; simp [init])).2 h4 0 (by
    intro hid
    have := (fresh_exec (ns := countNS) (s := ⟨init, ⟨0, true⟩⟩) (fun c _ => rfl) hes).1 0 hid
    rw [h2] at this
    simp [upd] at this)
  obtain ⟨b, hb⟩ := this
  refine ⟨s, b, hes, hfs, hb, .create { OFID := 7, Name := long }, by rw [h2]; simp [upd], ?_⟩
  show ¬ long.length < 2 ^ 16
  omega

end Ninep.Client
