import Verif.Props.Codec
/-
Exactly which truncated packets a decoder accepts (C09).

A decoder reads a number of `n` bytes into the first `n` places of an array of eight bytes; if less than `n` bytes are
left, but at least one, the other places keep what was read into them before, and no error is reported.  So a packet
that has lost its end can be accepted if the cut is inside the last number; if that is the count of a string, a list or
a payload then what decides is what is in the array, and for a payload how much memory there is behind the packet.
-/

namespace Ninep.Spec

/-- the second byte of a number -/
def second (n : Nat) : Nat := n / 256 % 256

/-- A string at the end of a packet, before which the number `c` was read, may lose its last `k` bytes: all but the low
byte of its count, if this and the second byte of `c` are zero. -/
def strSlips (x : GoString) (c k : Nat) : Prop := k = x.length + 1 ∧ x.length % 256 = 0 ∧ second c = 0

/-- A payload at the end of a packet, with a count of `n` bytes, before which the number `c` was read, may lose its last
`k` bytes: some of its contents, if as many bytes are in the memory behind the packet (`room`), or all of its contents
and all but `j` bytes of its count, if there is room for the count made of these bytes and the upper ones of `c`. -/
def payloadSlips (n : Nat) (x : Bytes) (c room k : Nat) : Prop :=
  (0 < k ∧ k ≤ x.length ∧ k ≤ room) ∨
  ∃ j, 0 < j ∧ j < n ∧ k + j = n + x.length ∧ x.length % 256 ^ j + c % 256 ^ n / 256 ^ j * 256 ^ j ≤ room

/-- The numbers of bytes that a request may lose at its end without its decoder noticing. -/
def TMsg.slips (room : Nat) : TMsg → Nat → Prop
  | .version p, k => strSlips p.TVersion p.TMsize.toNat k
  | .attach p, k => strSlips p.Aname p.Uname.length k
  | .flush _, k => k = 1
  | .walk p, k => (k = 1 + (p.Paths.map str).flatten.length ∧ p.Paths.length % 256 = 0 ∧ second p.NewFID.toNat = 0) ∨
      (∃ x, p.Paths = [x] ∧ strSlips x 1 k) ∨ ∃ xs y x, p.Paths = xs ++ [y, x] ∧ strSlips x y.length k
  | .open_ _, _ => False
  | .create _, _ => False
  | .stat _, k => 0 < k ∧ k < 4
  | .wstat p, k => payloadSlips 2 p.B p.OFID.toNat room k
  | .clunk _, k => 0 < k ∧ k < 4
  | .remove _, k => 0 < k ∧ k < 4
  | .read _, k => 0 < k ∧ k < 4
  | .write p, k => payloadSlips 4 p.Data p.Off.toNat room k

/-- The numbers of bytes that a reply with the tag `t` may lose at its end without its decoder noticing. -/
def RMsg.slips (t : Tag) (room : Nat) : RMsg → Nat → Prop
  | .error p, k => strSlips p.Error t.toNat k
  | .version p, k => strSlips p.RVersion p.RMsize.toNat k
  | .attach _, k => 0 < k ∧ k < 8
  | .flush _, k => k = 1
  | .walk p, k => (k = 1 + (p.QIDs.map qid).flatten.length ∧ p.QIDs.length % 256 = 0 ∧ second t.toNat = 0) ∨
      (p.QIDs ≠ [] ∧ 0 < k ∧ k < 8)
  | .open_ _, k => 0 < k ∧ k < 4
  | .create _, k => 0 < k ∧ k < 4
  | .stat p, k => payloadSlips 2 p.B t.toNat room k
  | .wstat _, k => k = 1
  | .clunk _, k => k = 1
  | .remove _, k => k = 1
  | .read p, k => payloadSlips 4 p.Data t.toNat room k
  | .write _, k => 0 < k ∧ k < 4

end Ninep.Spec

namespace Ninep
open Spec Dec

abbrev Scratch := Fin 8 → Byte

/-- `w` is read into the array -/
def over (w : Bytes) (u : Scratch) : Scratch := fun i => w.getD i.val (u i)

/-- `m` reads a value; `next` is the array afterwards, `slip` says which cuts it does not notice. -/
structure Cuts {R α : Type} (m : Dec R Unit) (P : α → Prop) (enc : α → Bytes) (next : α → Scratch → Scratch)
    (slip : α → Scratch → Nat → Nat → Prop) : Prop where
  fwd : ∀ v, P v → ∀ pre rest spare u t r, ∃ t' r',
    m ⟨⟨pre, enc v ++ rest, spare⟩, u, t, r⟩ = .ok () ⟨⟨pre ++ enc v, rest, spare⟩, next v u, t', r'⟩
  empty : ∀ s, s.b.unread = [] → ∃ e s', m s = .ret e s'
  cut : ∀ v, P v → ∀ w, w <+: enc v → w.length < (enc v).length → ∀ pre spare u t r,
    (∀ s', m ⟨⟨pre, w, spare⟩, u, t, r⟩ = .ok () s' → s'.b.unread = []) ∧
    ((∃ s', m ⟨⟨pre, w, spare⟩, u, t, r⟩ = .ok () s') ↔ slip v u spare.length ((enc v).length - w.length))

theorem Cuts.seq {R α β : Type} {m₁ m₂ : Dec R Unit} {P₁ : α → Prop} {P₂ : β → Prop} {e₁ e₂ n₁ n₂ k₁ k₂}
    (h₁ : Cuts m₁ P₁ e₁ n₁ k₁) (h₂ : Cuts m₂ P₂ e₂ n₂ k₂) :
    Cuts (m₁ >>= fun _ => m₂) (fun v : α × β => P₁ v.1 ∧ P₂ v.2) (fun v => e₁ v.1 ++ e₂ v.2)
      (fun v u => n₂ v.2 (n₁ v.1 u)) (fun v u n k => k ≤ (e₂ v.2).length ∧ k₂ v.2 (n₁ v.1 u) n k) where
  fwd := by
    rintro ⟨a, b⟩ ⟨ha, hb⟩ pre rest spare u t r
    obtain ⟨t1, r1, hu₁⟩ := h₁.fwd a ha pre (e₂ b ++ rest) spare u t r
    obtain ⟨t2, r2, hu₂⟩ := h₂.fwd b hb (pre ++ e₁ a) rest spare (n₁ a u) t1 r1
    refine ⟨t2, r2, ?_⟩
    simp only [List.append_assoc] at hu₁ hu₂ ⊢
    rw [bind_ok hu₁, hu₂]
  empty := by
    intro s hs
    obtain ⟨e, s', h⟩ := h₁.empty s hs
    exact ⟨e, s', bind_ret h⟩
  cut := by
    rintro ⟨a, b⟩ ⟨ha, hb⟩ w hw hl pre spare u t r
    rcases prefix_append_cases hw hl with ⟨hw', hl'⟩ | ⟨w', rfl, hw', hl'⟩
    · have hno : ∀ s', (m₁ >>= fun _ => m₂) ⟨⟨pre, w, spare⟩, u, t, r⟩ ≠ .ok () s' := by
        intro s' h
        obtain ⟨_, s₁', h1, h2⟩ := bind_eq_ok h
        have := (h₁.cut a ha w hw' hl' _ _ _ _ _).1 _ h1
        obtain ⟨e, s'', h3⟩ := h₂.empty _ this
        rw [h3] at h2; cases h2
      refine ⟨fun s' h => absurd h (hno s'), ⟨fun ⟨s', h⟩ => absurd h (hno s'), fun ⟨h, _⟩ => ?_⟩⟩
      dsimp only at h hl'
      simp only [List.length_append] at h
      omega
    · obtain ⟨t1, r1, hu₁⟩ := h₁.fwd a ha pre w' spare u t r
      rw [bind_ok hu₁]
      have := h₂.cut b hb w' hw' hl' (pre ++ e₁ a) spare (n₁ a u) t1 r1
      refine ⟨this.1, this.2.trans ?_⟩
      simp only [List.length_append, Nat.add_sub_add_left]
      exact ⟨fun h => ⟨by omega, h⟩, fun h => h.2⟩

theorem readU_over {R : Type} (n : Nat) (e : DecErr) (w pre spare : Bytes) (u : Scratch) (t) (r : R) (h : w ≠ []) :
    readU n e ⟨⟨pre, w, spare⟩, u, t, r⟩ =
      .ok (over (w.take n) u) ⟨⟨pre ++ w.take n, w.drop n, spare⟩, over (w.take n) u, t, r⟩ := readU_eq n e _ h

theorem cuts_int {R α : Type} (n : Nat) (hpos : 0 < n) (e : DecErr) (enc : α → Bytes) (hlen : ∀ v, (enc v).length = n)
    (k : Scratch → Dec R Unit) (hk : ∀ v s, ∃ t r, k v s = .ok () { s with t := t, r := r }) :
    Cuts (readU n e >>= k) (fun _ => True) enc (fun v => over (enc v)) (fun _ _ _ => intSlack n) where
  fwd := by
    intro v _ pre rest spare u t r
    have hne : enc v ++ rest ≠ [] := by
      intro h; have := congrArg List.length h; simp only [List.length_append, List.length_nil, hlen] at this; omega
    have h1 : (enc v ++ rest).take n = enc v := by simp [← hlen v]
    have h2 : (enc v ++ rest).drop n = rest := by simp [← hlen v]
    rw [bind_ok (readU_over n e _ pre spare u t r hne), h1, h2]
    obtain ⟨t', r', h⟩ := hk (over (enc v) u) ⟨⟨pre ++ enc v, rest, spare⟩, over (enc v) u, t, r⟩
    exact ⟨t', r', h⟩
  empty := by
    intro s hs
    obtain ⟨s', h⟩ := readU_empty n e s hs
    exact ⟨e, s', bind_ret h⟩
  cut := by
    intro v _ w hw hl pre spare u t r
    rw [hlen] at hl ⊢
    by_cases hw0 : w = []
    · obtain ⟨s'', h'⟩ := readU_empty n e ⟨⟨pre, w, spare⟩, u, t, r⟩ hw0
      rw [bind_ret h']
      subst hw0
      simp [intSlack]
    · rw [bind_ok (readU_over n e _ pre spare u t r hw0)]
      obtain ⟨t', r', h⟩ := hk (over (w.take n) u) ⟨⟨pre ++ w.take n, w.drop n, spare⟩, over (w.take n) u, t, r⟩
      rw [h]
      have := List.length_pos_iff.2 hw0
      refine ⟨?_, ?_⟩
      · intro s' hs
        injection hs with _ hs
        subst hs
        exact List.drop_of_length_le (by omega)
      · exact ⟨fun _ => ⟨by omega, by omega⟩, fun _ => ⟨_, rfl⟩⟩

theorem cuts_u8 {R : Type} (f : UInt8 → R → R) :
    Cuts (getU8 f) (fun _ => True) (fun v : UInt8 => le 1 v.toNat) (fun v => over (le 1 v.toNat)) (fun _ _ _ => intSlack 1) :=
  cuts_int 1 (by decide) _ _ (by simp) _ fun _ _ => ⟨_, _, rfl⟩

theorem cuts_u16 {R : Type} (f : UInt16 → R → R) :
    Cuts (getU16 f) (fun _ => True) (fun v : UInt16 => le 2 v.toNat) (fun v => over (le 2 v.toNat)) (fun _ _ _ => intSlack 2) :=
  cuts_int 2 (by decide) _ _ (by simp) _ fun _ _ => ⟨_, _, rfl⟩

theorem cuts_u32 {R : Type} (f : UInt32 → R → R) :
    Cuts (getU32 f) (fun _ => True) (fun v : UInt32 => le 4 v.toNat) (fun v => over (le 4 v.toNat)) (fun _ _ _ => intSlack 4) :=
  cuts_int 4 (by decide) _ _ (by simp) _ fun _ _ => ⟨_, _, rfl⟩

theorem cuts_u64 {R : Type} (f : UInt64 → R → R) :
    Cuts (getU64 f) (fun _ => True) (fun v : UInt64 => le 8 v.toNat) (fun v => over (le 8 v.toNat)) (fun _ _ _ => intSlack 8) :=
  cuts_int 8 (by decide) _ _ (by simp) _ fun _ _ => ⟨_, _, rfl⟩

theorem cuts_count {R : Type} (f : Int32 → R → R) :
    Cuts (getCount f) (fun _ => True) (fun v : Int32 => le 4 v.toUInt32.toNat) (fun v => over (le 4 v.toUInt32.toNat))
      (fun _ _ _ => intSlack 4) :=
  cuts_int 4 (by decide) _ _ (by simp) _ fun _ _ => ⟨_, _, rfl⟩

theorem cuts_tag {R : Type} :
    Cuts (R := R) getTag (fun _ => True) (fun v : Tag => le 2 v.toNat) (fun v => over (le 2 v.toNat)) (fun _ _ _ => intSlack 2) :=
  cuts_int 2 (by decide) _ _ (by simp) _ fun _ _ => ⟨_, _, rfl⟩

theorem over_len16 {n : Nat} (hn : n < 2 ^ 16) (u : Scratch) : (asmLen16 (over (le 2 n) u)).toNat = n := by
  rw [asmLen16_toNat]
  simp [over, le, leVal]
  omega

/-- the count made of the low byte of a count and a byte read before -/
theorem over_low {n : Nat} (u : Scratch) : (asmLen16 (over [UInt8.ofNat (n % 256)] u)).toNat = n % 256 + 256 * (u 1).toNat := by
  rw [asmLen16_toNat]
  simp [over, leVal]

/-- what is left of a two byte number of which one byte is missing -/
theorem le2_cut {n : Nat} {w : Bytes} (h0 : w ≠ []) (hw : w <+: le 2 n) (hl : w.length < 2) : w = [UInt8.ofNat (n % 256)] := by
  have hl : w.length = 1 := by have := List.length_pos_iff.2 h0; omega
  rw [List.prefix_iff_eq_take.1 hw, hl]
  simp [le]

theorem cuts_string {R : Type} (f : GoString → R → R) :
    Cuts (getString f) (fun v => v.length < 2 ^ 16) str (fun v => over (le 2 v.length))
      (fun v u _ k => k = v.length + 1 ∧ v.length % 256 + 256 * (u 1).toNat = 0) where
  fwd := by
    intro v hv pre rest spare u t r
    refine ⟨t, f v r, ?_⟩
    have hne : le 2 v.length ++ (v ++ rest) ≠ [] := by simp [le]
    have h1 : (le 2 v.length ++ (v ++ rest)).take 2 = le 2 v.length := by simp [le]
    have h2 : (le 2 v.length ++ (v ++ rest)).drop 2 = v ++ rest := by simp [le]
    simp only [str, List.append_assoc]
    unfold getString
    rw [bind_ok (readU_over 2 _ _ pre spare u t r hne), h1, h2, over_len16 hv]
    simp [takeString, Buffer.len, Buffer.bytes, Buffer.next]
  empty := by
    intro s hs
    obtain ⟨s', h⟩ := readU_empty 2 (.shortInt 16) s hs
    exact ⟨_, s', bind_ret h⟩
  cut := by
    intro v hv w hw hl pre spare u t r
    unfold getString
    by_cases hw0 : w = []
    · obtain ⟨s'', h'⟩ := readU_empty 2 (.shortInt 16) ⟨⟨pre, w, spare⟩, u, t, r⟩ hw0
      rw [bind_ret h']
      subst hw0
      simp only [List.length_nil, str_length, reduceCtorEq, false_implies, implies_true, exists_false, true_and, false_iff]
      omega
    · rcases prefix_append_cases hw hl with ⟨hw', hl'⟩ | ⟨w', rfl, hw', hl'⟩
      · simp only [le_length] at hl'
        have e := le2_cut hw0 hw' hl'
        subst e
        rw [bind_ok (readU_over 2 _ _ pre spare u t r (by simp))]
        simp only [List.take_succ_cons, List.take_nil, List.drop_succ_cons, List.drop_nil, over_low, takeString, Buffer.len,
          List.length_nil, str_length, List.length_singleton]
        by_cases hlt : 0 < v.length % 256 + 256 * (u 1).toNat
        · rw [if_pos hlt]
          simp only [reduceCtorEq, false_implies, implies_true, exists_false, true_and, false_iff]
          omega
        · rw [if_neg hlt]
          refine ⟨?_, fun _ => ⟨by omega, by omega⟩, fun _ => ⟨_, rfl⟩⟩
          intro s' hs
          injection hs with _ hs
          subst hs
          simp [Buffer.next]
      · have hne : le 2 v.length ++ w' ≠ [] := by simp [le]
        have h1 : (le 2 v.length ++ w').take 2 = le 2 v.length := by simp [le]
        have h2 : (le 2 v.length ++ w').drop 2 = w' := by simp [le]
        rw [bind_ok (readU_over 2 _ _ pre spare u t r hne), h1, h2, over_len16 hv]
        simp only [takeString, Buffer.len, hl', if_true, reduceCtorEq, false_implies, implies_true, exists_false, true_and,
          false_iff, str_length, List.length_append, le_length]
        omega

/-- a payload, after its count -/
theorem takeData_room {R : Type} (l : Nat) (f : Bytes → R → R) (s : DSt R) :
    (∀ s', takeData l f s = .ok () s' → s'.b.unread = s.b.unread.drop l) ∧
    ((∃ s', takeData l f s = .ok () s') ↔ l ≤ s.b.unread.length + s.b.spare.length) := by
  unfold takeData Buffer.sliceTo
  by_cases hl : l ≤ (s.b.unread ++ s.b.spare).length
  · rw [if_pos hl]
    refine ⟨?_, fun _ => by simpa using hl, fun _ => ⟨_, rfl⟩⟩
    intro s' hs
    injection hs with _ hs
    subst hs
    rfl
  · rw [if_neg hl]
    simp only [reduceCtorEq, false_implies, implies_true, exists_false, true_and, false_iff]
    simpa using hl

theorem cuts_data16 {R : Type} (f : Bytes → R → R) :
    Cuts (getData16 f) (fun v => v.length < 2 ^ 16) (fun v => le 2 v.length ++ v) (fun v => over (le 2 v.length))
      (fun v u n k => (0 < k ∧ k ≤ v.length ∧ k ≤ n) ∨ (k = v.length + 1 ∧ v.length % 256 + 256 * (u 1).toNat ≤ n)) where
  fwd := by
    intro v hv pre rest spare u t r
    refine ⟨t, f v r, ?_⟩
    have hne : le 2 v.length ++ (v ++ rest) ≠ [] := by simp [le]
    have h1 : (le 2 v.length ++ (v ++ rest)).take 2 = le 2 v.length := by simp [le]
    have h2 : (le 2 v.length ++ (v ++ rest)).drop 2 = v ++ rest := by simp [le]
    simp only [List.append_assoc]
    unfold getData16
    rw [bind_ok (readU_over 2 _ _ pre spare u t r hne), h1, h2, over_len16 hv, takeData_fwd]
    simp
  empty := by
    intro s hs
    obtain ⟨s', h⟩ := readU_empty 2 (.shortInt 16) s hs
    exact ⟨_, s', bind_ret h⟩
  cut := by
    intro v hv w hw hl pre spare u t r
    unfold getData16
    by_cases hw0 : w = []
    · obtain ⟨s'', h'⟩ := readU_empty 2 (.shortInt 16) ⟨⟨pre, w, spare⟩, u, t, r⟩ hw0
      rw [bind_ret h']
      subst hw0
      simp only [List.length_nil, reduceCtorEq, false_implies, implies_true, exists_false, true_and, false_iff,
        List.length_append, le_length]
      omega
    · rcases prefix_append_cases hw hl with ⟨hw', hl'⟩ | ⟨w', rfl, hw', hl'⟩
      · simp only [le_length] at hl'
        have e := le2_cut hw0 hw' hl'
        subst e
        rw [bind_ok (readU_over 2 _ _ pre spare u t r (by simp))]
        simp only [List.take_succ_cons, List.take_nil, List.drop_succ_cons, List.drop_nil, over_low]
        obtain ⟨g1, g2⟩ := takeData_room (v.length % 256 + 256 * (u 1).toNat) f
          ⟨⟨pre ++ [UInt8.ofNat (v.length % 256)], [], spare⟩, over [UInt8.ofNat (v.length % 256)] u, t, r⟩
        refine ⟨fun s' hs => by simpa using g1 s' hs, g2.trans ?_⟩
        simp only [List.length_nil, List.length_append, le_length, List.length_singleton]
        omega
      · have hne : le 2 v.length ++ w' ≠ [] := by simp [le]
        have h1 : (le 2 v.length ++ w').take 2 = le 2 v.length := by simp [le]
        have h2 : (le 2 v.length ++ w').drop 2 = w' := by simp [le]
        rw [bind_ok (readU_over 2 _ _ pre spare u t r hne), h1, h2, over_len16 hv]
        obtain ⟨g1, g2⟩ := takeData_room v.length f ⟨⟨pre ++ le 2 v.length, w', spare⟩, over (le 2 v.length) u, t, r⟩
        refine ⟨fun s' hs => (g1 s' hs).trans (List.drop_of_length_le (by dsimp only; omega)), g2.trans ?_⟩
        simp only [List.length_append, le_length]
        omega

theorem over_len32 {n : Nat} (hn : n < 2 ^ 32) (u : Scratch) : (asmLen32 (over (le 4 n) u)).toNat = n := by
  rw [asmLen32_toNat]
  have h3 : ((3 : Fin 8) : Nat) = 3 := rfl
  simp [over, le, leVal, h3]
  omega

/-- the count made of the lower bytes of a count and bytes read before -/
theorem over_part {n : Nat} (u : Scratch) (j : Nat) (h0 : 0 < j) (hj : j < 4) : (asmLen32 (over ((le 4 n).take j) u)).toNat =
    n % 256 ^ j + leVal [u 0, u 1, u 2, u 3] / 256 ^ j * 256 ^ j := by
  rw [asmLen32_toNat]
  have h3 : ((3 : Fin 8) : Nat) = 3 := rfl
  have hb : ∀ i, (u i).toNat < 256 := fun i => (u i).toNat_lt
  have := hb 0
  have := hb 1
  have := hb 2
  have := hb 3
  rcases (by omega : j = 1 ∨ j = 2 ∨ j = 3) with rfl | rfl | rfl <;> simp [over, le, leVal, h3] <;> omega

theorem cuts_data32 {R : Type} (f : Bytes → R → R) :
    Cuts (getData32 f) (fun v => v.length < 2 ^ 32) (fun v => le 4 v.length ++ v) (fun v => over (le 4 v.length))
      (fun v u n k => (0 < k ∧ k ≤ v.length ∧ k ≤ n) ∨ ∃ j, 0 < j ∧ j < 4 ∧ k + j = 4 + v.length ∧
        v.length % 256 ^ j + leVal [u 0, u 1, u 2, u 3] / 256 ^ j * 256 ^ j ≤ n) where
  fwd := by
    intro v hv pre rest spare u t r
    refine ⟨t, f v r, ?_⟩
    have hne : le 4 v.length ++ (v ++ rest) ≠ [] := by simp [le]
    have h1 : (le 4 v.length ++ (v ++ rest)).take 4 = le 4 v.length := by simp [le]
    have h2 : (le 4 v.length ++ (v ++ rest)).drop 4 = v ++ rest := by simp [le]
    simp only [List.append_assoc]
    unfold getData32
    rw [bind_ok (readU_over 4 _ _ pre spare u t r hne), h1, h2, over_len32 hv, takeData_fwd]
    simp
  empty := by
    intro s hs
    obtain ⟨s', h⟩ := readU_empty 4 (.shortInt 32) s hs
    exact ⟨_, s', bind_ret h⟩
  cut := by
    intro v hv w hw hl pre spare u t r
    unfold getData32
    by_cases hw0 : w = []
    · obtain ⟨s'', h'⟩ := readU_empty 4 (.shortInt 32) ⟨⟨pre, w, spare⟩, u, t, r⟩ hw0
      rw [bind_ret h']
      subst hw0
      simp only [List.length_nil, reduceCtorEq, false_implies, implies_true, exists_false, true_and, false_iff,
        List.length_append, le_length]
      rintro (h | ⟨j, h⟩) <;> omega
    · rcases prefix_append_cases hw hl with ⟨hw', hl'⟩ | ⟨w', rfl, hw', hl'⟩
      · simp only [le_length] at hl'
        have hpos := List.length_pos_iff.2 hw0
        have e : w = (le 4 v.length).take w.length := List.prefix_iff_eq_take.1 hw'
        rw [bind_ok (readU_over 4 _ _ pre spare u t r hw0), List.take_of_length_le (by omega), List.drop_of_length_le (by omega)]
        have hp := over_part (n := v.length) u w.length hpos hl'
        rw [← e] at hp
        rw [hp]
        obtain ⟨g1, g2⟩ := takeData_room (v.length % 256 ^ w.length + leVal [u 0, u 1, u 2, u 3] / 256 ^ w.length * 256 ^ w.length) f
          ⟨⟨pre ++ w, [], spare⟩, over w u, t, r⟩
        refine ⟨fun s' hs => by simpa using g1 s' hs, g2.trans ?_⟩
        simp only [List.length_nil, List.length_append, le_length, Nat.zero_add]
        constructor
        · intro h
          exact .inr ⟨w.length, hpos, hl', by omega, h⟩
        · rintro (h | ⟨j, _, _, h1, h2⟩)
          · omega
          · obtain rfl : j = w.length := by omega
            exact h2
      · have hne : le 4 v.length ++ w' ≠ [] := by simp [le]
        have h1 : (le 4 v.length ++ w').take 4 = le 4 v.length := by simp [le]
        have h2 : (le 4 v.length ++ w').drop 4 = w' := by simp [le]
        rw [bind_ok (readU_over 4 _ _ pre spare u t r hne), h1, h2, over_len32 hv]
        obtain ⟨g1, g2⟩ := takeData_room v.length f ⟨⟨pre ++ le 4 v.length, w', spare⟩, over (le 4 v.length) u, t, r⟩
        refine ⟨fun s' hs => (g1 s' hs).trans (List.drop_of_length_le (by dsimp only; omega)), g2.trans ?_⟩
        simp only [List.length_append, le_length]
        constructor
        · intro h
          exact .inl ⟨by omega, by omega, by omega⟩
        · rintro (h | ⟨j, _, _, h1, h2⟩) <;> omega

theorem Cuts.of {R α β : Type} {m : Dec R Unit} {P : α → Prop} {enc next slip} (h : Cuts (R := R) m P enc next slip) (of : β → α)
    {P' : β → Prop} {enc' : β → Bytes} {next' : β → Scratch → Scratch} {slip' : β → Scratch → Nat → Nat → Prop}
    (hP : ∀ b, P' b → P (of b)) (henc : ∀ b, enc' b = enc (of b)) (hnext : ∀ b u, P' b → next' b u = next (of b) u)
    (hslip : ∀ b u n k, P' b → k ≤ (enc' b).length → (slip' b u n k ↔ slip (of b) u n k)) : Cuts m P' enc' next' slip' where
  fwd := by
    intro b hb pre rest spare u t r
    rw [henc, hnext b u hb]
    exact h.fwd (of b) (hP b hb) pre rest spare u t r
  empty := h.empty
  cut := by
    intro b hb w hw hl pre spare u t r
    rw [hslip b u _ _ hb (by omega)]
    rw [henc] at hw hl ⊢
    exact h.cut (of b) (hP b hb) w hw hl pre spare u t r

theorem cuts_qid {R : Type} (upd : (QID → QID) → R → R) :
    Cuts (getQID upd) (fun _ => True) qid (fun q => over (le 8 q.Path.toNat)) (fun _ _ _ => intSlack 8) := by
  refine ((cuts_u8 _).seq ((cuts_u32 _).seq (cuts_u64 _))).of (of := fun q => (q.Typ, q.Version, q.Path)) ?_ ?_ ?_ ?_
  · simp
  · intro q; simp [qid]
  · intro q u _
    funext i
    simp only [over]
    simp
  · intro q u n k _ hk
    simp only [le_length, intSlack, List.length_append]
    omega

section loop
variable {R α : Type} {body : Nat → Dec R Unit} {P : α → Prop} {enc : α → Bytes} {next : α → Scratch → Scratch}
  {slip : α → Scratch → Nat → Nat → Prop}

/-- the array after a list has been read -/
def nextAll (next : α → Scratch → Scratch) (vs : List α) (u : Scratch) : Scratch := vs.foldl (fun u v => next v u) u

/-- only the last element of a list may be cut -/
def slipLast (next : α → Scratch → Scratch) (slip : α → Scratch → Nat → Nat → Prop) (vs : List α) (u : Scratch) (n k : Nat) : Prop :=
  ∃ xs x, vs = xs ++ [x] ∧ slip x (nextAll next xs u) n k

theorem forRange_fwd (hb : ∀ i, Cuts (body i) P enc next slip) (vs : List α) (hP : ∀ v ∈ vs, P v) (i pre rest spare u t r) :
    ∃ t' r', forRange body vs.length i ⟨⟨pre, (vs.map enc).flatten ++ rest, spare⟩, u, t, r⟩ =
      .ok () ⟨⟨pre ++ (vs.map enc).flatten, rest, spare⟩, nextAll next vs u, t', r'⟩ := by
  induction vs generalizing i pre u t r with
  | nil => exact ⟨t, r, by simp [forRange, nextAll]; rfl⟩
  | cons v vs ih =>
    obtain ⟨t1, r1, h₁⟩ := (hb i).fwd v (hP v (by simp)) pre ((vs.map enc).flatten ++ rest) spare u t r
    obtain ⟨t2, r2, h₂⟩ := ih (fun v' h' => hP v' (by simp [h'])) (i + 1) (pre ++ enc v) (next v u) t1 r1
    refine ⟨t2, r2, ?_⟩
    simp only [List.length_cons, forRange, List.map_cons, List.flatten_cons, List.append_assoc] at h₁ h₂ ⊢
    rw [bind_ok h₁, h₂]
    rfl

theorem forRange_cut (hb : ∀ i, Cuts (body i) P enc next slip) (hs : ∀ v u n k, P v → slip v u n k → k < (enc v).length)
    (vs : List α) (hP : ∀ v ∈ vs, P v) (w : Bytes) (hw : w <+: (vs.map enc).flatten)
    (hl : w.length < (vs.map enc).flatten.length) (i pre spare u t r) :
    (∀ s', forRange body vs.length i ⟨⟨pre, w, spare⟩, u, t, r⟩ = .ok () s' → s'.b.unread = []) ∧
    ((∃ s', forRange body vs.length i ⟨⟨pre, w, spare⟩, u, t, r⟩ = .ok () s') ↔
      slipLast next slip vs u spare.length ((vs.map enc).flatten.length - w.length)) := by
  induction vs generalizing i pre u t r w with
  | nil => simp at hl
  | cons v vs ih =>
    have hv := hP v (by simp)
    simp only [List.map_cons, List.flatten_cons] at hw hl ⊢
    simp only [List.length_cons, forRange]
    rcases prefix_append_cases hw hl with ⟨hw', hl'⟩ | ⟨w', rfl, hw', hl'⟩
    · obtain ⟨c1, c2⟩ := (hb i).cut v hv w hw' hl' pre spare u t r
      cases vs with
      | nil =>
        have e : ∀ s', ((body i >>= fun _ => forRange body 0 (i + 1)) ⟨⟨pre, w, spare⟩, u, t, r⟩ = .ok () s') ↔
            body i ⟨⟨pre, w, spare⟩, u, t, r⟩ = .ok () s' := by
          intro s'
          rw [bind_def]
          cases body i ⟨⟨pre, w, spare⟩, u, t, r⟩ <;> simp [forRange, pure, Dec.pure]
        simp only [List.length_nil, e]
        refine ⟨c1, c2.trans ?_⟩
        simp only [List.map_nil, List.flatten_nil, List.append_nil]
        constructor
        · intro h
          exact ⟨[], v, rfl, h⟩
        · rintro ⟨xs, x, he, h⟩
          have hxs : xs = [] ∧ x = v := by
            cases xs with
            | nil => simp at he; exact ⟨rfl, he.symm⟩
            | cons a xs => simp at he
          obtain ⟨rfl, rfl⟩ := hxs
          exact h
      | cons v' vs' =>
        have hno : ∀ s', (body i >>= fun _ => forRange body (v' :: vs').length (i + 1)) ⟨⟨pre, w, spare⟩, u, t, r⟩ ≠ .ok () s' := by
          intro s' h
          obtain ⟨_, s₁, h1, h2⟩ := bind_eq_ok h
          obtain ⟨e, s₂, h3⟩ := (hb (i + 1)).empty s₁ (c1 _ h1)
          simp only [List.length_cons, forRange] at h2
          rw [bind_ret h3] at h2; cases h2
        refine ⟨fun s' h => absurd h (hno s'), fun ⟨s', h⟩ => absurd h (hno s'), ?_⟩
        rintro ⟨xs, x, he, h⟩
        exfalso
        cases xs with
        | nil => simp at he
        | cons a xs =>
          simp only [List.cons_append, List.cons.injEq] at he
          obtain ⟨rfl, he⟩ := he
          have hx : P x := hP x (by rw [he]; simp)
          have hlt := hs _ _ _ _ hx h
          rw [he] at hlt
          simp only [List.map_append, List.flatten_append, List.length_append, List.map_cons, List.map_nil, List.flatten_cons,
            List.flatten_nil, List.append_nil] at hlt
          omega
    · obtain ⟨t1, r1, h₁⟩ := (hb i).fwd v hv pre w' spare u t r
      rw [bind_ok h₁]
      have := ih (fun v' h' => hP v' (by simp [h'])) w' hw' hl' (i + 1) (pre ++ enc v) (next v u) t1 r1
      refine ⟨this.1, this.2.trans ?_⟩
      simp only [List.length_append, Nat.add_sub_add_left]
      constructor
      · rintro ⟨xs, x, he, h⟩
        exact ⟨v :: xs, x, by rw [he]; rfl, h⟩
      · rintro ⟨xs, x, he, h⟩
        cases xs with
        | nil =>
          simp only [List.nil_append, List.cons.injEq] at he
          rw [he.2] at hl'
          simp at hl'
        | cons a xs =>
          simp only [List.cons_append, List.cons.injEq] at he
          obtain ⟨rfl, he⟩ := he
          exact ⟨xs, x, he, h⟩

theorem cuts_list (hb : ∀ i, Cuts (body i) P enc next slip) (hs : ∀ v u n k, P v → slip v u n k → k < (enc v).length)
    (g : Scratch → R → R) :
    Cuts (do
        let u ← readU 2 (.shortInt 16)
        setR (g u)
        forRange body (asmLen16 u).toNat 0)
      (fun vs => vs.length < 2 ^ 16 ∧ ∀ v ∈ vs, P v)
      (fun vs => le 2 vs.length ++ (vs.map enc).flatten)
      (fun vs u => nextAll next vs (over (le 2 vs.length) u))
      (fun vs u n k => (k = 1 + (vs.map enc).flatten.length ∧ vs.length % 256 + 256 * (u 1).toNat = 0) ∨
        slipLast next slip vs (over (le 2 vs.length) u) n k) where
  fwd := by
    intro vs ⟨hv, hP⟩ pre rest spare u t r
    have hne : le 2 vs.length ++ ((vs.map enc).flatten ++ rest) ≠ [] := by simp [le]
    have h1 : (le 2 vs.length ++ ((vs.map enc).flatten ++ rest)).take 2 = le 2 vs.length := by simp [le]
    have h2 : (le 2 vs.length ++ ((vs.map enc).flatten ++ rest)).drop 2 = (vs.map enc).flatten ++ rest := by simp [le]
    obtain ⟨t1, r1, hh⟩ := forRange_fwd hb vs hP 0 (pre ++ le 2 vs.length) rest spare (over (le 2 vs.length) u) t
      (g (over (le 2 vs.length) u) r)
    refine ⟨t1, r1, ?_⟩
    simp only [List.append_assoc] at hh ⊢
    rw [bind_ok (readU_over 2 _ _ pre spare u t r hne), h1, h2, over_len16 hv, bind_def]
    simp only [setR]
    exact hh
  empty := by
    intro s hs
    obtain ⟨s', h⟩ := readU_empty 2 (.shortInt 16) s hs
    exact ⟨_, s', bind_ret h⟩
  cut := by
    intro vs ⟨hv, hP⟩ w hw hl pre spare u t r
    have hno : ∀ u n k, (vs.map enc).flatten.length ≤ k → ¬ slipLast next slip vs u n k := by
      rintro u n k hk ⟨xs, x, rfl, h⟩
      have := hs _ _ _ _ (hP x (by simp)) h
      simp only [List.map_append, List.flatten_append, List.length_append, List.map_cons, List.map_nil, List.flatten_cons,
        List.flatten_nil, List.append_nil] at hk
      omega
    by_cases hw0 : w = []
    · obtain ⟨s'', h'⟩ := readU_empty 2 (.shortInt 16) ⟨⟨pre, w, spare⟩, u, t, r⟩ hw0
      rw [bind_ret h']
      subst hw0
      simp only [List.length_nil, reduceCtorEq, false_implies, implies_true, exists_false, true_and, false_iff,
        List.length_append, le_length]
      rintro (h | h)
      · omega
      · exact hno _ _ _ (by omega) h
    · rcases prefix_append_cases hw hl with ⟨hw', hl'⟩ | ⟨w', rfl, hw', hl'⟩
      · simp only [le_length] at hl'
        have e := le2_cut hw0 hw' hl'
        subst e
        rw [bind_ok (readU_over 2 _ _ pre spare u t r (by simp)), bind_def]
        simp only [List.take_succ_cons, List.take_nil, List.drop_succ_cons, List.drop_nil, over_low, setR, List.length_append, le_length,
          List.length_singleton]
        cases hk : vs.length % 256 + 256 * (u 1).toNat with
        | zero =>
          refine ⟨?_, fun _ => .inl ⟨by omega, rfl⟩, fun _ => ⟨_, rfl⟩⟩
          intro s' hs'
          injection hs' with _ hs'
          subst hs'
          rfl
        | succ l =>
          obtain ⟨e, s₂, h3⟩ := (hb 0).empty ⟨⟨pre ++ [UInt8.ofNat (vs.length % 256)], [], spare⟩, over [UInt8.ofNat (vs.length % 256)] u, t,
            g (over [UInt8.ofNat (vs.length % 256)] u) r⟩ rfl
          simp only [forRange]
          rw [bind_ret h3]
          simp only [reduceCtorEq, false_implies, implies_true, exists_false, true_and, false_iff]
          rintro (h | h)
          · simp at h
          · exact hno _ _ _ (by omega) h
      · have hne : le 2 vs.length ++ w' ≠ [] := by simp [le]
        have h1 : (le 2 vs.length ++ w').take 2 = le 2 vs.length := by simp [le]
        have h2 : (le 2 vs.length ++ w').drop 2 = w' := by simp [le]
        rw [bind_ok (readU_over 2 _ _ pre spare u t r hne), h1, h2, over_len16 hv, bind_def]
        simp only [setR]
        have := forRange_cut hb hs vs hP w' hw' hl' 0 (pre ++ le 2 vs.length) spare (over (le 2 vs.length) u) t
          (g (over (le 2 vs.length) u) r)
        refine ⟨this.1, this.2.trans ?_⟩
        simp only [List.length_append, le_length, Nat.add_sub_add_left]
        constructor
        · exact .inr
        · rintro (h | h)
          · omega
          · exact h

end loop

theorem cuts_strings {R : Type} (upd : (List GoString → List GoString) → R → R) :
    Cuts (getStrings upd) (fun vs => vs.length < 2 ^ 16 ∧ ∀ v ∈ vs, v.length < 2 ^ 16)
      (fun vs => le 2 vs.length ++ (vs.map str).flatten)
      (fun vs u => nextAll (fun v => over (le 2 v.length)) vs (over (le 2 vs.length) u))
      (fun vs u n k => (k = 1 + (vs.map str).flatten.length ∧ vs.length % 256 + 256 * (u 1).toNat = 0) ∨
        slipLast (fun v => over (le 2 v.length)) (fun v u _ k => k = v.length + 1 ∧ v.length % 256 + 256 * (u 1).toNat = 0)
          vs (over (le 2 vs.length) u) n k) :=
  cuts_list (fun _ => cuts_string _) (by rintro v u n k - ⟨rfl, -⟩; rw [str_length]; omega)
    (fun u => upd fun _ => List.replicate (asmLen16 u).toNat [])

theorem cuts_qids {R : Type} (upd : (List QID → List QID) → R → R) :
    Cuts (getQIDs upd) (fun vs => vs.length < 2 ^ 16 ∧ ∀ v ∈ vs, True)
      (fun vs => le 2 vs.length ++ (vs.map qid).flatten)
      (fun vs u => nextAll (fun q => over (le 8 q.Path.toNat)) vs (over (le 2 vs.length) u))
      (fun vs u n k => (k = 1 + (vs.map qid).flatten.length ∧ vs.length % 256 + 256 * (u 1).toNat = 0) ∨
        slipLast (fun q => over (le 8 q.Path.toNat)) (fun _ _ _ => intSlack 8) vs (over (le 2 vs.length) u) n k) :=
  cuts_list (fun _ => cuts_qid _) (by rintro v u n k - ⟨-, h⟩; simp [qid]; omega)
    (fun u => upd fun _ => List.replicate (asmLen16 u).toNat {})

/-- `m` reads a whole packet -/
structure CutPkt {R α : Type} (m : Dec R Unit) (P : α → Prop) (enc : α → Bytes) (slip : α → Scratch → Nat → Nat → Prop) : Prop where
  empty : ∀ s, s.b.unread = [] → ∃ e s', m s = .ret e s'
  cut : ∀ v, P v → ∀ w, w <+: enc v → w.length < (enc v).length → ∀ pre spare u t r,
    ((∃ s', m ⟨⟨pre, w, spare⟩, u, t, r⟩ = .ok () s') ↔ slip v u spare.length ((enc v).length - w.length))

theorem Cuts.last {R α : Type} {m : Dec R Unit} {P : α → Prop} {enc next slip} (h : Cuts m P enc next slip) :
    CutPkt (m >>= fun _ => finish) P enc slip where
  empty := by
    intro s hs
    obtain ⟨e, s', h⟩ := h.empty s hs
    exact ⟨e, s', bind_ret h⟩
  cut := by
    intro v hv w hw hl pre spare u t r
    obtain ⟨c1, c2⟩ := h.cut v hv w hw hl pre spare u t r
    rw [← c2]
    constructor
    · rintro ⟨s', hs⟩
      obtain ⟨_, s₁, h1, h2⟩ := bind_eq_ok hs
      exact ⟨s₁, h1⟩
    · rintro ⟨s', hs⟩
      exact ⟨s', by rw [bind_ok hs, finish_nil _ (c1 _ hs)]⟩

theorem Cuts.cons {R α β : Type} {m₁ m₂ : Dec R Unit} {P₁ : α → Prop} {P₂ : β → Prop} {e₁ e₂ n₁ k₁ k₂}
    (h₁ : Cuts m₁ P₁ e₁ n₁ k₁) (h₂ : CutPkt m₂ P₂ e₂ k₂) :
    CutPkt (m₁ >>= fun _ => m₂) (fun v : α × β => P₁ v.1 ∧ P₂ v.2) (fun v => e₁ v.1 ++ e₂ v.2)
      (fun v u n k => k ≤ (e₂ v.2).length ∧ k₂ v.2 (n₁ v.1 u) n k) where
  empty := by
    intro s hs
    obtain ⟨e, s', h⟩ := h₁.empty s hs
    exact ⟨e, s', bind_ret h⟩
  cut := by
    rintro ⟨a, b⟩ ⟨ha, hb⟩ w hw hl pre spare u t r
    rcases prefix_append_cases hw hl with ⟨hw', hl'⟩ | ⟨w', rfl, hw', hl'⟩
    · have hno : ∀ s', (m₁ >>= fun _ => m₂) ⟨⟨pre, w, spare⟩, u, t, r⟩ ≠ .ok () s' := by
        intro s' h
        obtain ⟨_, s₁', h1, h2⟩ := bind_eq_ok h
        have := (h₁.cut a ha w hw' hl' _ _ _ _ _).1 _ h1
        obtain ⟨e, s'', h3⟩ := h₂.empty _ this
        rw [h3] at h2; cases h2
      refine ⟨fun ⟨s', h⟩ => absurd h (hno s'), fun ⟨h, _⟩ => ?_⟩
      dsimp only at h hl'
      simp only [List.length_append] at h
      omega
    · obtain ⟨t1, r1, hu₁⟩ := h₁.fwd a ha pre w' spare u t r
      rw [bind_ok hu₁]
      refine (h₂.cut b hb w' hw' hl' (pre ++ e₁ a) spare (n₁ a u) t1 r1).trans ?_
      simp only [List.length_append, Nat.add_sub_add_left]
      exact ⟨fun h => ⟨by omega, h⟩, fun h => h.2⟩

/-- from a packet to a message -/
theorem CutPkt.exact {R α N : Type} {m : Dec R Unit} {P : α → Prop} {enc slip} {zero : R} {dec : Buffer → Unm R}
    (hdec : dec = Dec.run m zero) (h : CutPkt m P enc slip) (c : R → N) (v : α) (hv : P v) {body : Bytes} (henc : body = enc v)
    {slip' : Nat → Nat → Prop} (hslip : ∀ n k, k ≤ body.length → (slip' n k ↔ slip v (fun _ => 0) n k))
    (w pre spare : Bytes) (hw : w <+: body) (hl : w.length < body.length) :
    (∃ m' t' b', (dec ⟨pre, w, spare⟩).map c = .done m' t' none b') ↔ slip' spare.length (body.length - w.length) := by
  rw [hslip _ _ (by omega), henc]
  rw [henc] at hw hl
  rw [← h.cut v hv w hw hl pre spare (fun _ => 0) 0 zero, hdec, Dec.run]
  cases hm : m ⟨⟨pre, w, spare⟩, fun _ => 0, 0, zero⟩ <;> simp [Unm.map]

theorem over_1 (n : Nat) (l : Nat) (h : l = 2 ∨ l = 4 ∨ l = 8) (u : Scratch) : (over (le l n) u 1).toNat = second n := by
  rcases h with rfl | rfl | rfl <;> simp [over, le, second]

theorem payload2 (v : Bytes) (c n k : Nat) : payloadSlips 2 v c n k ↔
    (0 < k ∧ k ≤ v.length ∧ k ≤ n) ∨ (k = v.length + 1 ∧ v.length % 256 + 256 * second c ≤ n) := by
  unfold payloadSlips second
  refine or_congr Iff.rfl ⟨?_, ?_⟩
  · rintro ⟨j, h0, h1, h2, h3⟩
    obtain rfl : j = 1 := by omega
    exact ⟨by omega, by omega⟩
  · rintro ⟨h1, h2⟩
    exact ⟨1, by omega, by omega, by omega, by omega⟩

theorem over_4 (n : Nat) (u : Scratch) : leVal [over (le 8 n) u 0, over (le 8 n) u 1, over (le 8 n) u 2, over (le 8 n) u 3] =
    n % 256 ^ 4 := by
  have h3 : ((3 : Fin 8) : Nat) = 3 := rfl
  simp [over, le, leVal, h3]
  omega

theorem over_2 (t : Tag) : leVal [over (le 2 t.toNat) (fun _ => 0) 0, over (le 2 t.toNat) (fun _ => 0) 1,
    over (le 2 t.toNat) (fun _ => 0) 2, over (le 2 t.toNat) (fun _ => 0) 3] = t.toNat % 256 ^ 4 := by
  have h3 : ((3 : Fin 8) : Nat) = 3 := rfl
  have := t.toNat_lt
  simp [over, le, leVal, h3]
  omega

theorem last_string (vs : List GoString) (u : Scratch) (n k : Nat) :
    slipLast (fun v => over (le 2 v.length)) (fun v u _ k => k = v.length + 1 ∧ v.length % 256 + 256 * (u 1).toNat = 0)
        vs (over (le 2 vs.length) u) n k ↔
      (∃ x, vs = [x] ∧ strSlips x 1 k) ∨ ∃ xs y x, vs = xs ++ [y, x] ∧ strSlips x y.length k := by
  constructor
  · rintro ⟨xs, x, rfl, h1, h2⟩
    rcases List.eq_nil_or_concat xs with rfl | ⟨xs, y, rfl⟩
    · exact .inl ⟨x, rfl, h1, by omega, rfl⟩
    · refine .inr ⟨xs, y, x, by simp, h1, by omega, ?_⟩
      simp only [nextAll, List.concat_eq_append, List.foldl_append, List.foldl_cons, List.foldl_nil] at h2
      rw [over_1 _ _ (.inl rfl)] at h2
      omega
  · rintro (⟨x, rfl, h1, h2, h3⟩ | ⟨xs, y, x, rfl, h1, h2, h3⟩)
    · refine ⟨[], x, rfl, h1, ?_⟩
      show _ + 256 * (over (le 2 1) u 1).toNat = 0
      rw [over_1 _ _ (.inl rfl)]
      omega
    · refine ⟨xs ++ [y], x, by simp, h1, ?_⟩
      simp only [nextAll, List.foldl_append, List.foldl_cons, List.foldl_nil]
      rw [over_1 _ _ (.inl rfl)]
      omega

theorem last_qid (vs : List QID) (u : Scratch) (n k : Nat) :
    slipLast (fun q => over (le 8 q.Path.toNat)) (fun _ _ _ => intSlack 8) vs u n k ↔ vs ≠ [] ∧ 0 < k ∧ k < 8 := by
  constructor
  · rintro ⟨xs, x, rfl, h⟩
    exact ⟨by simp, h⟩
  · rintro ⟨h0, h⟩
    exact ⟨vs.dropLast, vs.getLast h0, (List.dropLast_concat_getLast h0).symm, h⟩

theorem strSlips_le {x : GoString} {c k : Nat} (h : strSlips x c k) : k ≤ (str x).length := by
  rw [str_length, h.1]
  omega

theorem payloadSlips_le {n : Nat} {x : Bytes} {c room k : Nat} (h : payloadSlips n x c room k) : k ≤ n + x.length := by
  rcases h with h | ⟨j, h⟩ <;> omega

theorem cuts_T (m : TMsg) (t : Tag) (hm : m.Fits) (w pre spare : Bytes) (hw : w <+: m.body t) (hl : w.length < (m.body t).length) :
    (∃ m' t' b', decT m ⟨pre, w, spare⟩ = .done m' t' none b') ↔ m.slips spare.length ((m.body t).length - w.length) := by
  cases m with
  | version p =>
    refine CutPkt.exact (dec := unmarshalTversion) (slip' := fun n => (TMsg.version p).slips n) rfl
      (cuts_tag.cons ((cuts_u32 _).cons (cuts_string _).last)) TMsg.version (t, p.TMsize, p.TVersion)
      (by simpa [TMsg.Fits] using hm) (by simp [TMsg.body, TMsg.fields]) ?_ w pre spare hw hl
    intro n k hk
    simp [TMsg.slips, strSlips, over_1, str_length]
    omega
  | attach p =>
    refine CutPkt.exact (dec := unmarshalTattach) (slip' := fun n => (TMsg.attach p).slips n) rfl
      (cuts_tag.cons ((cuts_u32 _).cons ((cuts_u32 _).cons ((cuts_string _).cons (cuts_string _).last))))
      TMsg.attach (t, p.SFID, p.AFID, p.Uname, p.Aname)
      (by simpa [TMsg.Fits] using hm) (by simp [TMsg.body, TMsg.fields]) ?_ w pre spare hw hl
    intro n k hk
    simp [TMsg.slips, strSlips, over_1, str_length]
    omega
  | flush p =>
    refine CutPkt.exact (dec := unmarshalTflush) (slip' := fun n => (TMsg.flush p).slips n) rfl
      (cuts_tag.cons (cuts_u16 _).last) TMsg.flush (t, p.OTag)
      (by simp) (by simp [TMsg.body, TMsg.fields]) ?_ w pre spare hw hl
    intro n k hk
    simp [TMsg.slips, intSlack]
    omega
  | walk p =>
    refine CutPkt.exact (dec := unmarshalTwalk) (slip' := fun n => (TMsg.walk p).slips n) rfl
      (cuts_tag.cons ((cuts_u32 _).cons ((cuts_u32 _).cons (cuts_strings _).last)))
      TMsg.walk (t, p.SFID, p.NewFID, p.Paths)
      (by simpa [TMsg.Fits] using hm) (by simp [TMsg.body, TMsg.fields]) ?_ w pre spare hw hl
    intro n k hk
    simp only [TMsg.slips, last_string, over_1 _ 4 (by decide)]
    constructor
    · intro h
      have hle : k ≤ (le 2 p.Paths.length ++ (p.Paths.map str).flatten).length := by
        rw [List.length_append, le_length]
        rcases h with h | ⟨x, hx, h⟩ | ⟨xs, y, x, hx, h⟩
        · omega
        · have := strSlips_le h
          rw [hx]
          simp
          omega
        · have := strSlips_le h
          rw [hx]
          simp
          omega
      refine ⟨?_, ?_, hle, ?_⟩
      · simp only [List.length_append, le_length] at hle ⊢
        omega
      · simp only [List.length_append, le_length] at hle ⊢
        omega
      · exact h.imp (fun ⟨a, b, c⟩ => ⟨a, by omega⟩) id
    · rintro ⟨-, -, -, h⟩
      exact h.imp (fun ⟨a, b⟩ => ⟨a, by omega, by omega⟩) id
  | open_ p =>
    refine CutPkt.exact (dec := unmarshalTopen) (slip' := fun n => (TMsg.open_ p).slips n) rfl
      (cuts_tag.cons ((cuts_u32 _).cons (cuts_u8 _).last)) TMsg.open_ (t, p.OFID, p.Omode)
      (by simp) (by simp [TMsg.body, TMsg.fields]) ?_ w pre spare hw hl
    intro n k hk
    simp [TMsg.slips, intSlack]
    omega
  | create p =>
    refine CutPkt.exact (dec := unmarshalTcreate) (slip' := fun n => (TMsg.create p).slips n) rfl
      (cuts_tag.cons ((cuts_u32 _).cons ((cuts_string _).cons ((cuts_u32 _).cons (cuts_u8 _).last))))
      TMsg.create (t, p.OFID, p.Name, p.CreatePerm, p.Omode)
      (by simpa [TMsg.Fits] using hm) (by simp [TMsg.body, TMsg.fields]) ?_ w pre spare hw hl
    intro n k hk
    simp [TMsg.slips, intSlack]
    omega
  | stat p =>
    refine CutPkt.exact (dec := unmarshalTstat) (slip' := fun n => (TMsg.stat p).slips n) rfl
      (cuts_tag.cons (cuts_u32 _).last) TMsg.stat (t, p.OFID)
      (by simp) (by simp [TMsg.body, TMsg.fields]) ?_ w pre spare hw hl
    intro n k hk
    simp [TMsg.slips, intSlack]
    omega
  | wstat p =>
    refine CutPkt.exact (dec := unmarshalTwstat) (slip' := fun n => (TMsg.wstat p).slips n) rfl
      (cuts_tag.cons ((cuts_u32 _).cons (cuts_data16 _).last)) TMsg.wstat (t, p.OFID, p.B)
      (by simpa [TMsg.Fits] using hm) (by simp [TMsg.body, TMsg.fields]) ?_ w pre spare hw hl
    intro n k hk
    simp only [TMsg.slips, payload2, over_1 _ 4 (by decide), List.length_append, le_length]
    omega
  | clunk p =>
    refine CutPkt.exact (dec := unmarshalTclunk) (slip' := fun n => (TMsg.clunk p).slips n) rfl
      (cuts_tag.cons (cuts_u32 _).last) TMsg.clunk (t, p.OFID)
      (by simp) (by simp [TMsg.body, TMsg.fields]) ?_ w pre spare hw hl
    intro n k hk
    simp [TMsg.slips, intSlack]
    omega
  | remove p =>
    refine CutPkt.exact (dec := unmarshalTremove) (slip' := fun n => (TMsg.remove p).slips n) rfl
      (cuts_tag.cons (cuts_u32 _).last) TMsg.remove (t, p.OFID)
      (by simp) (by simp [TMsg.body, TMsg.fields]) ?_ w pre spare hw hl
    intro n k hk
    simp [TMsg.slips, intSlack]
    omega
  | read p =>
    refine CutPkt.exact (dec := unmarshalTread) (slip' := fun n => (TMsg.read p).slips n) rfl
      (cuts_tag.cons ((cuts_u32 _).cons ((cuts_u64 _).cons (cuts_count _).last))) TMsg.read
      (t, p.OFID, p.Off, p.Len)
      (by simp) (by simp [TMsg.body, TMsg.fields]) ?_ w pre spare hw hl
    intro n k hk
    simp [TMsg.slips, intSlack]
    omega
  | write p =>
    refine CutPkt.exact (dec := unmarshalTwrite) (slip' := fun n => (TMsg.write p).slips n) rfl
      (cuts_tag.cons ((cuts_u32 _).cons ((cuts_u64 _).cons (cuts_data32 _).last))) TMsg.write
      (t, p.OFID, p.Off, p.Data)
      (by simpa [TMsg.Fits] using hm) (by simp [TMsg.body, TMsg.fields]) ?_ w pre spare hw hl
    intro n k hk
    simp only [TMsg.slips, over_4, List.length_append, le_length]
    exact ⟨fun h => by have := payloadSlips_le h; exact ⟨by omega, by omega, by omega, h⟩, fun h => h.2.2.2⟩

theorem cuts_R (m : RMsg) (t : Tag) (hm : m.Fits) (w pre spare : Bytes) (hw : w <+: m.body t) (hl : w.length < (m.body t).length) :
    (∃ m' t' b', decR m ⟨pre, w, spare⟩ = .done m' t' none b') ↔ m.slips t spare.length ((m.body t).length - w.length) := by
  cases m with
  | error p =>
    refine CutPkt.exact (dec := unmarshalRerror) (slip' := fun n => (RMsg.error p).slips t n) rfl
      (cuts_tag.cons (cuts_string _).last) RMsg.error (t, p.Error)
      (by simpa [RMsg.Fits] using hm) (by simp [RMsg.body, RMsg.fields]) ?_ w pre spare hw hl
    intro n k hk
    simp [RMsg.slips, strSlips, over_1, str_length]
    omega
  | version p =>
    refine CutPkt.exact (dec := unmarshalRversion) (slip' := fun n => (RMsg.version p).slips t n) rfl
      (cuts_tag.cons ((cuts_u32 _).cons (cuts_string _).last)) RMsg.version (t, p.RMsize, p.RVersion)
      (by simpa [RMsg.Fits] using hm) (by simp [RMsg.body, RMsg.fields]) ?_ w pre spare hw hl
    intro n k hk
    simp [RMsg.slips, strSlips, over_1, str_length]
    omega
  | attach p =>
    refine CutPkt.exact (dec := unmarshalRattach) (slip' := fun n => (RMsg.attach p).slips t n) rfl
      (cuts_tag.cons (cuts_qid _).last) RMsg.attach (t, p.QID)
      (by simp) (by simp [RMsg.body, RMsg.fields]) ?_ w pre spare hw hl
    intro n k hk
    simp [RMsg.slips, intSlack, qid]
    omega
  | flush p =>
    refine CutPkt.exact (dec := unmarshalRflush) (slip' := fun n => (RMsg.flush p).slips t n) rfl
      cuts_tag.last RMsg.flush t
      (by simp) (by simp [RMsg.body, RMsg.fields]) ?_ w pre spare hw hl
    intro n k hk
    simp [RMsg.slips, intSlack]
    omega
  | walk p =>
    refine CutPkt.exact (dec := unmarshalRwalk) (slip' := fun n => (RMsg.walk p).slips t n) rfl
      (cuts_tag.cons (cuts_qids _).last) RMsg.walk (t, p.QIDs)
      (by simpa [RMsg.Fits] using hm) (by simp [RMsg.body, RMsg.fields]) ?_ w pre spare hw hl
    intro n k hk
    simp only [RMsg.slips, last_qid, over_1 _ 2 (by decide), List.length_append, le_length]
    constructor
    · intro h
      refine ⟨?_, h.imp (fun ⟨a, b, c⟩ => ⟨a, by omega⟩) id⟩
      rcases h with h | ⟨h0, h1, h2⟩
      · omega
      · obtain ⟨x, xs, hx⟩ := List.exists_cons_of_ne_nil h0
        rw [hx]
        simp [qid]
        omega
    · rintro ⟨-, h⟩
      exact h.imp (fun ⟨a, b⟩ => ⟨a, by omega, by omega⟩) id
  | open_ p =>
    refine CutPkt.exact (dec := unmarshalRopen) (slip' := fun n => (RMsg.open_ p).slips t n) rfl
      (cuts_tag.cons ((cuts_qid _).cons (cuts_u32 _).last)) RMsg.open_ (t, p.OQID, p.IOUnit)
      (by simp) (by simp [RMsg.body, RMsg.fields]) ?_ w pre spare hw hl
    intro n k hk
    simp [RMsg.slips, intSlack, qid]
    omega
  | create p =>
    refine CutPkt.exact (dec := unmarshalRcreate) (slip' := fun n => (RMsg.create p).slips t n) rfl
      (cuts_tag.cons ((cuts_qid _).cons (cuts_u32 _).last)) RMsg.create (t, p.OQID, p.IOUnit)
      (by simp) (by simp [RMsg.body, RMsg.fields]) ?_ w pre spare hw hl
    intro n k hk
    simp [RMsg.slips, intSlack, qid]
    omega
  | stat p =>
    refine CutPkt.exact (dec := unmarshalRstat) (slip' := fun n => (RMsg.stat p).slips t n) rfl
      (cuts_tag.cons (cuts_data16 _).last) RMsg.stat (t, p.B)
      (by simpa [RMsg.Fits] using hm) (by simp [RMsg.body, RMsg.fields]) ?_ w pre spare hw hl
    intro n k hk
    simp only [RMsg.slips, payload2, over_1 _ 2 (by decide), List.length_append, le_length]
    omega
  | wstat p =>
    refine CutPkt.exact (dec := unmarshalRwstat) (slip' := fun n => (RMsg.wstat p).slips t n) rfl
      cuts_tag.last RMsg.wstat t
      (by simp) (by simp [RMsg.body, RMsg.fields]) ?_ w pre spare hw hl
    intro n k hk
    simp [RMsg.slips, intSlack]
    omega
  | clunk p =>
    refine CutPkt.exact (dec := unmarshalRclunk) (slip' := fun n => (RMsg.clunk p).slips t n) rfl
      cuts_tag.last RMsg.clunk t
      (by simp) (by simp [RMsg.body, RMsg.fields]) ?_ w pre spare hw hl
    intro n k hk
    simp [RMsg.slips, intSlack]
    omega
  | remove p =>
    refine CutPkt.exact (dec := unmarshalRremove) (slip' := fun n => (RMsg.remove p).slips t n) rfl
      cuts_tag.last RMsg.remove t
      (by simp) (by simp [RMsg.body, RMsg.fields]) ?_ w pre spare hw hl
    intro n k hk
    simp [RMsg.slips, intSlack]
    omega
  | read p =>
    refine CutPkt.exact (dec := unmarshalRread) (slip' := fun n => (RMsg.read p).slips t n) rfl
      (cuts_tag.cons (cuts_data32 _).last) RMsg.read (t, p.Data)
      (by simpa [RMsg.Fits] using hm) (by simp [RMsg.body, RMsg.fields]) ?_ w pre spare hw hl
    intro n k hk
    simp only [RMsg.slips, over_2, List.length_append, le_length]
    exact ⟨fun h => by have := payloadSlips_le h; exact ⟨by omega, h⟩, fun h => h.2⟩
  | write p =>
    refine CutPkt.exact (dec := unmarshalRwrite) (slip' := fun n => (RMsg.write p).slips t n) rfl
      (cuts_tag.cons (cuts_count _).last) RMsg.write (t, p.RLen)
      (by simp) (by simp [RMsg.body, RMsg.fields]) ?_ w pre spare hw hl
    intro n k hk
    simp [RMsg.slips, intSlack]
    omega

/-- **C09**, exactly which truncations go unnoticed: a decoder accepts a message that has lost its last `k` bytes if and
only if the table in `Spec.TMsg.slips` and `Spec.RMsg.slips` says so; what it says about a count that has been cut in two
depends on what was read before it, and what it says about a payload on the memory behind the packet.

Full statement (false, see `C09_counterexample`): *no* proper initial segment of an encoded body is accepted. -/
theorem C09_exact_partial :
    (∀ (m : TMsg) (t : Tag) (w pre spare : Bytes), m.Fits → w <+: m.body t → w.length < (m.body t).length →
      ((∃ m' t' b', decT m ⟨pre, w, spare⟩ = .done m' t' none b') ↔ m.slips spare.length ((m.body t).length - w.length))) ∧
    (∀ (m : RMsg) (t : Tag) (w pre spare : Bytes), m.Fits → w <+: m.body t → w.length < (m.body t).length →
      ((∃ m' t' b', decR m ⟨pre, w, spare⟩ = .done m' t' none b') ↔ m.slips t spare.length ((m.body t).length - w.length))) :=
  ⟨fun m t w pre spare hm => cuts_T m t hm w pre spare, fun m t w pre spare hm => cuts_R m t hm w pre spare⟩

/-- a version request that has lost all but the first byte of the count of its empty version is accepted if the second
byte of the message size is zero -/
example : (TMsg.version { TMsize := 10, TVersion := [] }).slips 0 1 := by simp [TMsg.slips, strSlips, second]

/-- and refused if it is not -/
example (n : Nat) : ¬ (TMsg.version { TMsize := 8192, TVersion := [] }).slips n 1 := by simp [TMsg.slips, strSlips, second]

/-- a write that has lost a byte of its data is accepted if there is a byte of memory behind it -/
example : (TMsg.write { OFID := 1, Off := 0, Data := [1, 2] }).slips 1 1 ∧
    ¬ (TMsg.write { OFID := 1, Off := 0, Data := [1, 2] }).slips 0 1 := by
  constructor
  · exact .inl ⟨by decide, by decide, by decide⟩
  · rintro (h | ⟨j, h⟩)
    · omega
    · simp at h
      omega

/-- a write at a high offset that has lost its data and part of its count would need as much memory as the offset says -/
example (n : Nat) (hn : n < 65536) : ¬ (TMsg.write { OFID := 1, Off := 65536, Data := [] }).slips n 2 := by
  rintro (h | ⟨j, h⟩)
  · simp at h
  · obtain ⟨h1, h2, h3, h4⟩ := h
    simp at h3
    obtain rfl : j = 2 := by omega
    simp at h4
    omega

/-- a walk to a file of one name without letters that has lost the second byte of the count of the name is accepted -/
example : (TMsg.walk { SFID := 1, NewFID := 2, Paths := [[]] }).slips 0 1 := by
  refine .inr (.inl ⟨[], rfl, ?_⟩)
  simp [strSlips, second]

end Ninep
