import Verif.Props.UfsWstat
import Verif.Props.CodecPanic
import Verif.Lemmas.Prog
import Verif.Lemmas.Gen

set_option linter.unusedSimpArgs false
set_option linter.unusedVariables false

/-!
# Incomplete stat records in Twstat (C97)
-/

namespace Ninep.Spec

/-- what a stat record is made of: a number of `n` bytes, a string -/
inductive StatItem where
  | num (n : Nat)
  | str

/-- type, dev, the three parts of the qid, mode, atime, mtime, length; name, uid, gid, muid -/
def statItems : List StatItem :=
  [.num 2, .num 4, .num 1, .num 4, .num 8, .num 4, .num 4, .num 4, .num 8, .str, .str, .str, .str]

/-- What the server finds missing in the bytes after the size of a stat record: nothing (`none`), or else the text of
its complaint.  `c` is the second byte of what was decoded last; it is taken for the high byte of the length of a
string when only the low byte is there. -/
def lacking : List StatItem → (c : Byte) → Bytes → Option GoString
  | [], _, _ => none
  | .num n :: _, _, [] => some (lit "pkt too short for uint" ++ lit (toString (8 * n)) ++ lit ": need " ++ lit (toString n) ++ lit ", have 0")
  | .num n :: is, c, x :: w => lacking is (((x :: w).take n).getD 1 c) ((x :: w).drop n)
  | .str :: _, _, [] => some (lit "pkt too short for uint16: need 2, have 0")
  | .str :: is, c, x :: w =>
    let hi := w.headD c
    let l := x.toNat + 256 * hi.toNat
    if w.tail.length < l then
      some (lit "pkt too short for string: need " ++ lit (toString l) ++ lit ", have " ++ lit (toString w.tail.length))
    else lacking is hi (w.tail.drop l)

end Ninep.Spec

namespace Ninep.Ufs
open Spec Dec

/-- a decoder that does what `lacking` says -/
def ReadsItems {R : Type} (D : Dec R Unit) (is : List StatItem) : Prop :=
  ∀ js s, (∃ e s', D s = .ret e s' ∧ lacking (is ++ js) (s.u 1) s.b.unread = some (decErrText e)) ∨
    (∃ s', D s = .ok () s' ∧ lacking (is ++ js) (s.u 1) s.b.unread = lacking js (s'.u 1) s'.b.unread)

theorem ReadsItems.bind {R : Type} {D D' : Dec R Unit} {is is' : List StatItem} (h : ReadsItems D is) (h' : ReadsItems D' is') :
    ReadsItems (D >>= fun _ => D') (is ++ is') := by
  intro js s
  rw [List.append_assoc]
  rcases h (is' ++ js) s with ⟨e, s', h1, h2⟩ | ⟨s', h1, h2⟩
  · exact .inl ⟨e, s', bind_ret h1, h2⟩
  · rw [bind_ok h1, h2]
    exact h' js s'

theorem reads_num {R : Type} (n : Nat) (hn : 0 < n) (k : (Fin 8 → Byte) → R → R) (ht : decErrText (.shortInt (8 * n)) = lit "pkt too short for uint" ++ lit (toString (8 * n)) ++ lit ": need " ++ lit (toString n) ++ lit ", have 0") :
    ReadsItems (readU n (.shortInt (8 * n)) >>= fun u => setR (k u)) [.num n] := by
  intro js s
  cases hu : s.b.unread with
  | nil =>
    obtain ⟨s', h⟩ := readU_empty n (.shortInt (8 * n)) s hu
    exact .inl ⟨_, s', bind_ret h, by simp [lacking, ht]⟩
  | cons x w =>
    have h := readU_eq n (.shortInt (8 * n)) s (by simp [hu])
    refine .inr ⟨_, bind_ok h, ?_⟩
    simp [lacking, hu]

theorem reads_string {R : Type} (f : GoString → R → R) : ReadsItems (getString f) [.str] := by
  intro js s
  cases hu : s.b.unread with
  | nil =>
    obtain ⟨s', h⟩ := readU_empty 2 (.shortInt 16) s hu
    exact .inl ⟨_, s', bind_ret h, by simp [lacking]; decide⟩
  | cons x w =>
    have h := readU_eq 2 (.shortInt 16) s (by simp [hu])
    have hl : (asmLen16 fun i => (s.b.unread.take 2).getD i.val (s.u i)).toNat = x.toNat + 256 * (w.headD (s.u 1)).toNat := by
      rw [asmLen16_toNat, hu]
      cases w <;> simp [leVal]
    have hd : s.b.unread.drop 2 = w.tail := by rw [hu]; cases w <;> rfl
    unfold getString
    rw [bind_ok h, hl, hd]
    simp only [takeString, Buffer.len]
    by_cases hlt : w.tail.length < x.toNat + 256 * (w.headD (s.u 1)).toNat
    · refine .inl ⟨_, _, if_pos hlt, ?_⟩
      simp only [List.singleton_append, lacking, if_pos hlt]
      simp [decErrText, dec]
    · refine .inr ⟨_, if_neg hlt, ?_⟩
      simp only [List.singleton_append, lacking, if_neg hlt]
      congr 1
      rw [hu]; cases w <;> rfl

theorem reads_u8 {R : Type} (f : UInt8 → R → R) : ReadsItems (getU8 f) [.num 1] := reads_num 1 (by decide) (fun u => f (u 0)) (by decide)
theorem reads_u16 {R : Type} (f : UInt16 → R → R) : ReadsItems (getU16 f) [.num 2] := reads_num 2 (by decide) (fun u => f (asm16 u)) (by decide)
theorem reads_u32 {R : Type} (f : UInt32 → R → R) : ReadsItems (getU32 f) [.num 4] := reads_num 4 (by decide) (fun u => f (asm32 u)) (by decide)
theorem reads_u64 {R : Type} (f : UInt64 → R → R) : ReadsItems (getU64 f) [.num 8] := reads_num 8 (by decide) (fun u => f (asm64 u)) (by decide)

theorem reads_qid {R : Type} (f : (QID → QID) → R → R) : ReadsItems (getQID f) [.num 1, .num 4, .num 8] :=
  (reads_u8 _).bind ((reads_u32 _).bind (reads_u64 _))

/-- the stat decoder, for all buffers -/
theorem reads_dir (b : Buffer) :
    (∃ d t e b', unmarshaldir b = .done d t (some e) b' ∧ lacking statItems 0 (b.unread.drop 2) = some (decErrText e)) ∨
    ∃ d t b', unmarshaldir b = .done d t none b' ∧ lacking statItems 0 (b.unread.drop 2) = none := by
  have h : ReadsItems (R := Dir) _ statItems := (reads_u16 fun v r => { r with Typ := v }).bind ((reads_u32 fun v r => { r with Dev := v }).bind
    ((reads_qid fun f r => { r with QID := f r.QID }).bind ((reads_u32 fun v r => { r with Mode := v }).bind
    ((reads_u32 fun v r => { r with Atime := v }).bind ((reads_u32 fun v r => { r with Mtime := v }).bind
    ((reads_u64 fun v r => { r with Length := v }).bind ((reads_string fun v r => { r with Name := v }).bind
    ((reads_string fun v r => { r with User := v }).bind ((reads_string fun v r => { r with Group := v }).bind
    (reads_string fun v r => { r with ModUser := v }))))))))))
  have hu : (b.next 2).unread = b.unread.drop 2 := by simp [Buffer.next]
  unfold unmarshaldir Dec.run
  rcases h [] { b := b.next 2, u := fun _ => 0, t := 0, r := {} } with ⟨e, s', h1, h2⟩ | ⟨s', h1, h2⟩
  · left
    rw [h1]
    exact ⟨_, _, e, _, rfl, by simpa [hu] using h2⟩
  · right
    rw [h1]
    exact ⟨_, _, _, rfl, by simpa [hu, lacking] using h2⟩

theorem lacking_num {n : Nat} (hn : 0 < n) (is : List StatItem) (c : Byte) (v : Nat) (w : Bytes) :
    lacking (.num n :: is) c (le n v ++ w) = lacking is ((le n v).getD 1 c) w := by
  cases h : le n v ++ w with
  | nil =>
    have := congrArg List.length h
    simp at this
    omega
  | cons x y =>
    have h1 : (x :: y).take n = le n v := by rw [← h]; simp
    have h2 : (x :: y).drop n = w := by rw [← h]; simp
    simp only [lacking, h1, h2]

theorem lacking_str (is : List StatItem) (c : Byte) (v : GoString) (hv : v.length < 2 ^ 16) (w : Bytes) :
    lacking (.str :: is) c (Spec.str v ++ w) = lacking is (UInt8.ofNat (v.length / 256 % 256)) w := by
  have e : Spec.str v ++ w = UInt8.ofNat (v.length % 256) :: (UInt8.ofNat (v.length / 256 % 256) :: (v ++ w)) := by
    simp [Spec.str, le]
  have hl : (UInt8.ofNat (v.length % 256)).toNat + 256 * (UInt8.ofNat (v.length / 256 % 256)).toNat = v.length := by
    simp; omega
  rw [e]
  simp only [lacking, List.headD_cons, List.tail_cons, hl]
  rw [if_neg (by simp)]
  simp

/-- all of the fields but the last -/
def dirHead (d : Dir) : Bytes :=
  le 2 d.Typ.toNat ++ le 4 d.Dev.toNat ++ Spec.qid d.QID ++ le 4 d.Mode.toNat ++ le 4 d.Atime.toNat
  ++ le 4 d.Mtime.toNat ++ le 8 d.Length.toNat ++ Spec.str d.Name ++ Spec.str d.User ++ Spec.str d.Group

theorem dirFields_head (d : Dir) : dirFields d = dirHead d ++ Spec.str d.ModUser := by simp [dirFields, dirHead]

theorem lacking_head (d : Dir) (hd : DirFits d) (w : Bytes) :
    lacking statItems 0 (dirHead d ++ w) = lacking [.str] (UInt8.ofNat (d.Group.length / 256 % 256)) w := by
  obtain ⟨h1, h2, h3, -⟩ := hd
  simp only [dirHead, statItems, Spec.qid, List.append_assoc]
  simp only [lacking_num (n := 1) (by decide), lacking_num (n := 2) (by decide), lacking_num (n := 4) (by decide), lacking_num (n := 8) (by decide),
    lacking_str _ _ _ h1, lacking_str _ _ _ h2, lacking_str _ _ _ h3]

/-- the decoder accepts exactly the records in which nothing is missing -/
theorem accepts_iff (b : Bytes) : (∃ d t b', unmarshaldir (Buffer.ofBytes b) = .done d t none b') ↔ lacking statItems 0 (b.drop 2) = none := by
  rcases reads_dir (Buffer.ofBytes b) with ⟨d, t, e, b', h1, h2⟩ | ⟨d, t, b', h1, h2⟩
  · have h2 : lacking statItems 0 (b.drop 2) = _ := h2
    rw [h1, h2]
    simp
  · have h2 : lacking statItems 0 (b.drop 2) = _ := h2
    rw [h1, h2]
    simp

theorem one_byte_left (c x : Byte) : lacking [.str] c [x] = none ↔ x = 0 ∧ c = 0 := by
  simp only [lacking, List.headD_nil, List.tail_nil, List.length_nil]
  constructor
  · intro h
    by_cases hh : 0 < x.toNat + 256 * c.toNat
    · simp [hh] at h
    · exact ⟨UInt8.toNat_inj.1 (by simp; omega), UInt8.toNat_inj.1 (by simp; omega)⟩
  · rintro ⟨rfl, rfl⟩
    rfl

theorem hi_zero {n : Nat} (h : n < 2 ^ 16) : UInt8.ofNat (n / 256 % 256) = 0 ↔ n < 256 := by
  rw [← UInt8.toNat_inj]
  simp
  omega

theorem lo_zero {n : Nat} : UInt8.ofNat (n % 256) = 0 ↔ n % 256 = 0 := by
  rw [← UInt8.toNat_inj]
  simp

/-- **C97** A stat record (the two bytes `x` and the fields of `d`) that has been cut off is refused, with one exception:
that what is left ends with the low byte of the length of the last string, which is zero, and the string before that is
shorter than 256 bytes. -/
theorem C97_cut (d : Dir) (hd : DirFits d) (x w : Bytes) (hx : x.length = 2) (hw : w <+: dirFields d) (hl : w.length < (dirFields d).length) :
    (∃ d' t b', unmarshaldir (Buffer.ofBytes (x ++ w)) = .done d' t none b') ↔
      w.length + d.ModUser.length + 1 = (dirFields d).length ∧ d.ModUser.length % 256 = 0 ∧ d.Group.length < 256 := by
  have hdrop : (x ++ w).drop 2 = w := by rw [← hx]; simp
  have hlen : (dirFields d).length = (dirHead d).length + (2 + d.ModUser.length) := by rw [dirFields_head]; simp [Spec.str]
  have key : w.length + d.ModUser.length + 1 = (dirFields d).length → w = dirHead d ++ [UInt8.ofNat (d.ModUser.length % 256)] := by
    intro h
    rw [List.prefix_iff_eq_take.1 hw, show w.length = (dirHead d).length + 1 by omega, dirFields_head]
    rw [List.take_append, List.take_of_length_le (by omega)]
    simp [Spec.str, le]
  rw [accepts_iff, hdrop]
  constructor
  · intro h
    obtain ⟨d', t, b', ha⟩ := (accepts_iff (x ++ w)).2 (by rw [hdrop]; exact h)
    have hk : w.length + d.ModUser.length + 1 = (dirFields d).length := by
      unfold unmarshaldir Dec.run at ha
      have hn : (Buffer.ofBytes (x ++ w)).next 2 = ⟨x, w, []⟩ := by simp [Buffer.next, Buffer.ofBytes, ← hx]
      rw [hn] at ha
      split at ha
      · next s' hs =>
        have := (decodes_dir.trunc d hd w hw hl x [] _ _ _ s' hs).2
        omega
      · cases ha
      · cases ha
    rw [key hk, lacking_head d hd, one_byte_left, lo_zero, hi_zero hd.2.2.1] at h
    exact ⟨hk, h⟩
  · rintro ⟨hk, h⟩
    rw [key hk, lacking_head d hd, one_byte_left, lo_zero, hi_zero hd.2.2.1]
    exact h

/-- the decoder without the last field -/
theorem head_fwd (d : Dir) (hd : DirFits d) (x w : Bytes) (hx : x.length = 2) : ∃ u',
    unmarshaldir (Buffer.ofBytes (x ++ (dirHead d ++ w))) =
      match getString (fun v r => { r with ModUser := v }) ⟨⟨x ++ dirHead d, w, []⟩, u', 0, { d with ModUser := [] }⟩ with
      | .ok _ s => .done s.r s.t none s.b
      | .ret e s => .done s.r s.t (some e) s.b
      | .panic => .panic := by
  have H := (codes_u16 (R := Dir) fun v r => { r with Typ := v }).seq ((codes_u32 fun v r => { r with Dev := v }).seq ((codes_qid (fun f r => { r with QID := f r.QID }) (fun _ _ _ => rfl)).seq
    ((codes_u32 fun v r => { r with Mode := v }).seq ((codes_u32 fun v r => { r with Atime := v }).seq ((codes_u32 fun v r => { r with Mtime := v }).seq
    ((codes_u64 fun v r => { r with Length := v }).seq ((codes_string fun v r => { r with Name := v }).seq ((codes_string fun v r => { r with User := v }).seq
    (codes_string fun v r => { r with Group := v })))))))))
  obtain ⟨u', hu⟩ := H.fwd (d.Typ, d.Dev, d.QID, d.Mode, d.Atime, d.Mtime, d.Length, d.Name, d.User, d.Group)
    ⟨trivial, trivial, trivial, trivial, trivial, trivial, trivial, hd.1, hd.2.1, hd.2.2.1⟩ x w [] (fun _ => 0) 0 {}
  refine ⟨u', ?_⟩
  have hn : (Buffer.ofBytes (x ++ (dirHead d ++ w))).next 2 = ⟨x, dirHead d ++ w, []⟩ := by simp [Buffer.next, Buffer.ofBytes, ← hx]
  have e : dirHead d = le 2 d.Typ.toNat ++ (le 4 d.Dev.toNat ++ (Spec.qid d.QID ++ (le 4 d.Mode.toNat ++ (le 4 d.Atime.toNat
    ++ (le 4 d.Mtime.toNat ++ (le 8 d.Length.toNat ++ (Spec.str d.Name ++ (Spec.str d.User ++ Spec.str d.Group)))))))) := by simp [dirHead]
  unfold unmarshaldir Dec.run
  rw [hn]
  have hu2 := bind_ok (f := fun _ => getString (fun v r => { r with ModUser := v })) hu
  simp only [Gen.bind_assoc'] at hu2
  rw [← e] at hu2
  rw [hu2]
  simp only [onR]
  generalize getString _ _ = g
  cases g <;> rfl

/-- a record the last string of which has lost its length but for a low byte of zero -/
theorem decodes_short (d : Dir) (hd : DirFits d) (hg : d.Group.length < 256) (x : Bytes) (hx : x.length = 2) :
    ∃ t b', unmarshaldir (Buffer.ofBytes (x ++ (dirHead d ++ [0]))) = .done { d with ModUser := [] } t none b' := by
  obtain ⟨d', t, b', h⟩ := (accepts_iff (x ++ (dirHead d ++ [0]))).2 (by
    have : (x ++ (dirHead d ++ [0])).drop 2 = dirHead d ++ [0] := by rw [← hx]; simp
    rw [this, lacking_head d hd, one_byte_left, hi_zero hd.2.2.1]
    exact ⟨rfl, hg⟩)
  refine ⟨t, b', ?_⟩
  obtain ⟨u', hu⟩ := head_fwd d hd x [0] hx
  rw [h] at hu ⊢
  have hr := readU_eq 2 (.shortInt 16) (⟨⟨x ++ dirHead d, [0], []⟩, u', 0, { d with ModUser := [] }⟩ : DSt Dir) (by simp)
  unfold getString at hu
  rw [bind_ok hr] at hu
  generalize (asmLen16 _).toNat = l at hu
  by_cases hl : 0 < l
  · simp [takeString, Buffer.len, hl] at hu
  · simp [takeString, Buffer.len, hl, Buffer.bytes] at hu
    rw [hu.1]

/-- **C97** The records that the decoder takes for `d`. -/
theorem C97_accepted (b : Bytes) (d : Dir) : (∃ t b', unmarshaldir (Buffer.ofBytes b) = .done d t none b') ↔
    DirFits d ∧ (dirFields d <+: b.drop 2 ∨ d.ModUser = [] ∧ d.Group.length < 256 ∧ b.drop 2 = (dirFields d).dropLast) := by
  have hn : (Buffer.ofBytes b).next 2 = ⟨b.take 2, b.drop 2, []⟩ := by simp [Buffer.next, Buffer.ofBytes]
  have split : b.drop 2 ≠ [] → b = b.take 2 ++ b.drop 2 ∧ (b.take 2).length = 2 := by
    intro h
    have := List.length_pos_iff.2 h
    simp at this ⊢
    omega
  constructor
  · rintro ⟨t, b', h⟩
    have hall := h
    unfold unmarshaldir Dec.run at h
    rw [hn] at h
    split at h
    · next s' hs =>
      obtain ⟨v, hv, h1, hc⟩ := decodes_dir.inv _ _ hs
      simp only [onR, Prod.mk.injEq] at h1
      simp only [Unm.done.injEq] at h
      obtain rfl : v = d := by rw [← h.1, h1.2]
      refine ⟨hv, ?_⟩
      rcases hc with hc | ⟨-, hc⟩
      · exact .inl ⟨_, hc.symm⟩
      · have hc : b.drop 2 <+: dirFields v := hc
        by_cases hlt : (b.drop 2).length < (dirFields v).length
        · right
          have hne : b.drop 2 ≠ [] := by
            intro h0
            obtain ⟨e, s'', he⟩ := decodes_dir.empty (⟨⟨b.take 2, b.drop 2, []⟩, fun _ => 0, 0, {}⟩ : DSt Dir) h0
            rw [he] at hs
            cases hs
          obtain ⟨hb, hx⟩ := split hne
          obtain ⟨g1, g2, g3⟩ := (C97_cut v hv (b.take 2) (b.drop 2) hx hc hlt).1 (by rw [← hb]; exact ⟨_, _, _, hall⟩)
          have hlen : (dirFields v).length = (dirHead v).length + (2 + v.ModUser.length) := by rw [dirFields_head]; simp [Spec.str]
          have hw : b.drop 2 = dirHead v ++ [0] := by
            rw [List.prefix_iff_eq_take.1 hc, show (b.drop 2).length = (dirHead v).length + 1 by omega, dirFields_head]
            rw [List.take_append, List.take_of_length_le (by omega)]
            simp [Spec.str, le, g2]
          obtain ⟨t2, b2, h2⟩ := decodes_short v hv g3 (b.take 2) hx
          rw [← hw, ← hb, hall] at h2
          simp only [Unm.done.injEq] at h2
          have hm : v.ModUser = [] := by rw [h2.1]
          refine ⟨hm, g3, ?_⟩
          rw [hw, dirFields_head, hm]
          simp [Spec.str, le, List.dropLast_append]
        · left
          rw [hc.eq_of_length (by have := hc.length_le; omega)]
          exact List.prefix_refl _
    · cases h
    · cases h
  · rintro ⟨hd, ⟨rest, h⟩ | ⟨h1, h2, h3⟩⟩
    · obtain ⟨u', hu⟩ := decodes_dir.fwd d hd (b.take 2) rest [] (fun _ => 0) 0 {}
      unfold unmarshaldir Dec.run
      rw [hn, ← h, hu]
      exact ⟨_, _, rfl⟩
    · have hw : b.drop 2 = dirHead d ++ [0] := by
        rw [h3, dirFields_head, h1]
        simp [Spec.str, le, List.dropLast_append]
      obtain ⟨hb, hx⟩ := split (by rw [hw]; simp)
      obtain ⟨t, b', h⟩ := decodes_short d hd h2 (b.take 2) hx
      rw [← hw, ← hb] at h
      refine ⟨t, b', ?_⟩
      rw [h]
      congr 1
      rw [← h1]

section
variable {ω H : Type} (host : Host ω H) (user : GoString)

/-- **C97** A wstat is not carried out if something of the stat record is missing: the reply is an error that says what is
missing, nothing has been changed, and no call of the operating system has been made.  Otherwise it is
carried out as if the record had been whole, without any bytes behind it, and with the right size in front.

The full statement (that a wstat is carried out only if its data is one whole record) is false, see
`C97_counterexample`: the size is not looked at, bytes left over are not looked at, and the very last byte of the
record may be missing. -/
theorem C97_wstat_partial (fid : FID) (b : Bytes) :
    (∀ text, lacking statItems 0 (b.drop 2) = some text →
      (∀ (s : State ω H) f, s.files fid = some f → (ufs host user).Rwstat fid b s = .err s text) ∧
      ∀ (o : Obj H) f, o.files fid = some f → pwstat fid b o = retErr o text) ∧
    (lacking statItems 0 (b.drop 2) = none → ∃ d, DirFits d ∧
      (dirFields d <+: b.drop 2 ∨ d.ModUser = [] ∧ d.Group.length < 256 ∧ b.drop 2 = (dirFields d).dropLast) ∧
      ∀ s : State ω H, (ufs host user).Rwstat fid b s = (ufs host user).Rwstat fid (Spec.dir d) s) := by
  constructor
  · intro text ht
    rcases reads_dir (Buffer.ofBytes b) with ⟨d, t, e, b', h1, h2⟩ | ⟨d, t, b', h1, h2⟩
    · have h2 : lacking statItems 0 (b.drop 2) = _ := h2
      rw [ht] at h2
      cases h2
      constructor
      · intro s f hf
        show rwstat host fid b s = _
        simp [rwstat, hf, h1]
      · intro o f hf
        simp [pwstat, hf, h1]
    · have h2 : lacking statItems 0 (b.drop 2) = _ := h2
      rw [ht] at h2
      cases h2
  · intro hn
    obtain ⟨d, t, b', h⟩ := (accepts_iff b).2 hn
    obtain ⟨h1, h2⟩ := (C97_accepted b d).1 ⟨t, b', h⟩
    refine ⟨d, h1, h2, fun s => ?_⟩
    obtain ⟨b2, h3⟩ := record_decodes h1 []
    rw [List.append_nil] at h3
    show rwstat host fid b s = rwstat host fid _ s
    cases hf : s.files fid with
    | none => simp [rwstat, hf]
    | some f => rw [rwstat_run host hf h, rwstat_run host hf h3]

end

/-- what a client sends to rename a file -/
def callIt (n : GoString) : Dir where
  Typ := 0xFFFF
  Dev := 0xFFFFFFFF
  QID := ⟨0xFF, 0xFFFFFFFF, 0xFFFFFFFFFFFFFFFF⟩
  Mode := 0xFFFFFFFF
  Atime := 0xFFFFFFFF
  Mtime := 0xFFFFFFFF
  Length := 0xFFFFFFFFFFFFFFFF
  Name := n

/-- **C97 is false**: for every record, a wrong size and bytes behind the record make no difference; and every rename can
lose its last byte. -/
theorem C97_counterexample {ω H : Type} (host : Host ω H) (user : GoString) (fid : FID) (s : State ω H) :
    (∀ d x rest, DirFits d → x.length = 2 → (ufs host user).Rwstat fid (x ++ dirFields d ++ rest) s = (ufs host user).Rwstat fid (Spec.dir d) s) ∧
    ∀ n, n.length < 2 ^ 16 → (ufs host user).Rwstat fid (Spec.dir (callIt n)).dropLast s = (ufs host user).Rwstat fid (Spec.dir (callIt n)) s := by
  have key : ∀ b d, DirFits d → (∃ t b', unmarshaldir (Buffer.ofBytes b) = .done d t none b') →
      (ufs host user).Rwstat fid b s = (ufs host user).Rwstat fid (Spec.dir d) s := by
    rintro b d hd ⟨t, b', h⟩
    obtain ⟨b2, h3⟩ := record_decodes hd []
    rw [List.append_nil] at h3
    show rwstat host fid b s = rwstat host fid _ s
    cases hf : s.files fid with
    | none => simp [rwstat, hf]
    | some f => rw [rwstat_run host hf h, rwstat_run host hf h3]
  constructor
  · intro d x rest hd hx
    refine key _ d hd ((C97_accepted _ d).2 ⟨hd, .inl ⟨rest, ?_⟩⟩)
    rw [← hx, List.append_assoc]; simp
  · intro n hn
    have hd : DirFits (callIt n) := ⟨hn, by simp [callIt], by simp [callIt], by simp [callIt]⟩
    refine key _ _ hd ((C97_accepted _ _).2 ⟨hd, .inr ⟨rfl, by simp [callIt], ?_⟩⟩)
    have hne : dirFields (callIt n) ≠ [] := by simp [dirFields, le]
    rw [Spec.dir, List.dropLast_append_of_ne_nil hne]
    simp

/-- C97: a record that ends before the type of the qid, one that ends inside of the name, one that is whole -/
example : lacking statItems 0 ((Spec.dir (callIt [65, 66])).take 8 |>.drop 2) = some (lit "pkt too short for uint8: need 1, have 0") ∧
    lacking statItems 0 ((Spec.dir (callIt [65, 66])).take 44 |>.drop 2) = some (lit "pkt too short for string: need 2, have 1") ∧
    lacking statItems 0 ((Spec.dir (callIt [65, 66])).drop 2) = none := by decide +kernel

/-- C97: the record of a rename meets the hypotheses of `C97_cut`, cut off after 8 bytes -/
example : DirFits (callIt [65, 66]) ∧ (dirFields (callIt [65, 66])).take 8 <+: dirFields (callIt [65, 66]) ∧
    ((dirFields (callIt [65, 66])).take 8).length < (dirFields (callIt [65, 66])).length :=
  ⟨by unfold DirFits; decide, List.take_prefix _ _, by decide⟩

end Ninep.Ufs
