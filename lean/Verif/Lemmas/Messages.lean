import Verif.Lemmas.Codes
import Verif.Proto.Codec
/-
The laws of every generated encoder and decoder.
-/

namespace Ninep
open Spec Dec

/-- The truncations of a message that its decoder may fail to notice, as a set of numbers of missing
bytes: they all lie inside the last field. -/
def Spec.TMsg.slack : TMsg → Nat → Prop
  | .version p, k => k = p.TVersion.length + 1
  | .attach p, k => k = p.Aname.length + 1
  | .flush _, k => k = 1
  | .walk p, k => k = 1 + (p.Paths.map str).flatten.length ∨
      ∃ v, p.Paths.getLast? = some v ∧ k = v.length + 1
  | .open_ _, _ => False
  | .create _, _ => False
  | .stat _, k => 0 < k ∧ k < 4
  | .wstat p, k => 0 < k ∧ k < 2 + p.B.length
  | .clunk _, k => 0 < k ∧ k < 4
  | .remove _, k => 0 < k ∧ k < 4
  | .read _, k => 0 < k ∧ k < 4
  | .write p, k => 0 < k ∧ k < 4 + p.Data.length

def Spec.RMsg.slack : RMsg → Nat → Prop
  | .error p, k => k = p.Error.length + 1
  | .version p, k => k = p.RVersion.length + 1
  | .attach _, k => 0 < k ∧ k < 8
  | .flush _, k => k = 1
  | .walk p, k => k = 1 + (p.QIDs.map qid).flatten.length ∨
      (p.QIDs ≠ [] ∧ 0 < k ∧ k < 8)
  | .open_ _, k => 0 < k ∧ k < 4
  | .create _, k => 0 < k ∧ k < 4
  | .stat p, k => 0 < k ∧ k < 2 + p.B.length
  | .wstat _, k => k = 1
  | .clunk _, k => k = 1
  | .remove _, k => k = 1
  | .read p, k => 0 < k ∧ k < 4 + p.Data.length
  | .write _, k => 0 < k ∧ k < 4

theorem decodes_Tversion : Decodes unmarshalTversion (fun p => (TMsg.version p).Fits)
    (fun t p => (TMsg.version p).body t) (fun p => (TMsg.version p).slack) :=
  Pkt.decodes rfl (codes_tag.cons ((codes_u32 _).cons (codes_string _).last))
    (fun t p => (t, p.TMsize, p.TVersion)) (by rintro ⟨_, _, _⟩ _ rfl; rfl) (fun _ _ => rfl)
    (by simp [TMsg.Fits]) (by simp [TMsg.body, TMsg.fields]) (fun _ _ _ h => h)

theorem decodes_Rversion : Decodes unmarshalRversion (fun p => (RMsg.version p).Fits)
    (fun t p => (RMsg.version p).body t) (fun p => (RMsg.version p).slack) :=
  Pkt.decodes rfl (codes_tag.cons ((codes_u32 _).cons (codes_string _).last))
    (fun t p => (t, p.RMsize, p.RVersion)) (by rintro ⟨_, _, _⟩ _ rfl; rfl) (fun _ _ => rfl)
    (by simp [RMsg.Fits]) (by simp [RMsg.body, RMsg.fields]) (fun _ _ _ h => h)

theorem decodes_Tattach : Decodes unmarshalTattach (fun p => (TMsg.attach p).Fits)
    (fun t p => (TMsg.attach p).body t) (fun p => (TMsg.attach p).slack) :=
  Pkt.decodes rfl (codes_tag.cons ((codes_u32 _).cons ((codes_u32 _).cons ((codes_string _).cons
    (codes_string _).last))))
    (fun t p => (t, p.SFID, p.AFID, p.Uname, p.Aname)) (by rintro ⟨_, _, _, _, _⟩ _ rfl; rfl)
    (fun _ _ => rfl)
    (by simp [TMsg.Fits]) (by simp [TMsg.body, TMsg.fields]) (fun _ _ _ h => h)

theorem decodes_Rattach : Decodes unmarshalRattach (fun p => (RMsg.attach p).Fits)
    (fun t p => (RMsg.attach p).body t) (fun p => (RMsg.attach p).slack) :=
  Pkt.decodes rfl (codes_tag.cons (codes_qid _ (fun _ _ _ => rfl)).last)
    (fun t p => (t, p.QID)) (by rintro ⟨_, _⟩ _ rfl; rfl)
    (fun _ _ => rfl)
    (by simp [RMsg.Fits]) (by simp [RMsg.body, RMsg.fields]) (fun _ _ _ h => h)

theorem decodes_Tflush : Decodes unmarshalTflush (fun p => (TMsg.flush p).Fits)
    (fun t p => (TMsg.flush p).body t) (fun p => (TMsg.flush p).slack) :=
  Pkt.decodes rfl (codes_tag.cons (codes_u16 _).last)
    (fun t p => (t, p.OTag)) (by rintro ⟨_, _⟩ _ rfl; rfl) (fun _ _ => rfl)
    (by simp [TMsg.Fits]) (by simp [TMsg.body, TMsg.fields])
    (by intro t r k h; simp only [intSlack, TMsg.slack] at *; omega)

theorem decodes_Twalk : Decodes unmarshalTwalk (fun p => (TMsg.walk p).Fits)
    (fun t p => (TMsg.walk p).body t) (fun p => (TMsg.walk p).slack) :=
  Pkt.decodes rfl (codes_tag.cons ((codes_u32 _).cons ((codes_u32 _).cons
    (codes_strings _ (fun _ _ _ => rfl) (fun _ => rfl)).last)))
    (fun t p => (t, p.SFID, p.NewFID, p.Paths)) (by rintro ⟨_, _, _, _⟩ _ rfl; rfl) (fun _ _ => rfl)
    (by simp [TMsg.Fits]) (by simp [TMsg.body, TMsg.fields]) (fun _ _ _ h => h)

theorem decodes_Rwalk : Decodes unmarshalRwalk (fun p => (RMsg.walk p).Fits)
    (fun t p => (RMsg.walk p).body t) (fun p => (RMsg.walk p).slack) :=
  Pkt.decodes rfl (codes_tag.cons
    (codes_qids _ (fun _ _ _ => rfl) (fun _ => rfl)).last)
    (fun t p => (t, p.QIDs)) (by rintro ⟨_, _⟩ _ rfl; rfl) (fun _ _ => rfl)
    (by simp [RMsg.Fits]) (by simp [RMsg.body, RMsg.fields]) (by
      rintro t r k (h | ⟨v, hv, h⟩)
      · exact Or.inl h
      · refine Or.inr ⟨?_, h⟩
        intro h0; simp [h0] at hv)

theorem decodes_Topen : Decodes unmarshalTopen (fun p => (TMsg.open_ p).Fits)
    (fun t p => (TMsg.open_ p).body t) (fun p => (TMsg.open_ p).slack) :=
  Pkt.decodes rfl (codes_tag.cons ((codes_u32 _).cons (codes_u8 _).last))
    (fun t p => (t, p.OFID, p.Omode)) (by rintro ⟨_, _, _⟩ _ rfl; rfl) (fun _ _ => rfl)
    (by simp [TMsg.Fits]) (by simp [TMsg.body, TMsg.fields])
    (by intro t r k h; simp only [intSlack, TMsg.slack] at *; omega)

theorem decodes_Ropen : Decodes unmarshalRopen (fun p => (RMsg.open_ p).Fits)
    (fun t p => (RMsg.open_ p).body t) (fun p => (RMsg.open_ p).slack) :=
  Pkt.decodes rfl (codes_tag.cons ((codes_qid _ (fun _ _ _ => rfl)).cons (codes_u32 _).last))
    (fun t p => (t, p.OQID, p.IOUnit)) (by rintro ⟨_, _, _⟩ _ rfl; rfl) (fun _ _ => rfl)
    (by simp [RMsg.Fits]) (by simp [RMsg.body, RMsg.fields]) (fun _ _ _ h => h)

theorem decodes_Tcreate : Decodes unmarshalTcreate (fun p => (TMsg.create p).Fits)
    (fun t p => (TMsg.create p).body t) (fun p => (TMsg.create p).slack) :=
  Pkt.decodes rfl (codes_tag.cons ((codes_u32 _).cons ((codes_string _).cons ((codes_u32 _).cons
    (codes_u8 _).last))))
    (fun t p => (t, p.OFID, p.Name, p.CreatePerm, p.Omode)) (by rintro ⟨_, _, _, _, _⟩ _ rfl; rfl)
    (fun _ _ => rfl)
    (by simp [TMsg.Fits]) (by simp [TMsg.body, TMsg.fields])
    (by intro t r k h; simp only [intSlack, TMsg.slack] at *; omega)

theorem decodes_Rcreate : Decodes unmarshalRcreate (fun p => (RMsg.create p).Fits)
    (fun t p => (RMsg.create p).body t) (fun p => (RMsg.create p).slack) :=
  Pkt.decodes rfl (codes_tag.cons ((codes_qid _ (fun _ _ _ => rfl)).cons (codes_u32 _).last))
    (fun t p => (t, p.OQID, p.IOUnit)) (by rintro ⟨_, _, _⟩ _ rfl; rfl) (fun _ _ => rfl)
    (by simp [RMsg.Fits]) (by simp [RMsg.body, RMsg.fields]) (fun _ _ _ h => h)

theorem decodes_Tstat : Decodes unmarshalTstat (fun p => (TMsg.stat p).Fits)
    (fun t p => (TMsg.stat p).body t) (fun p => (TMsg.stat p).slack) :=
  Pkt.decodes rfl (codes_tag.cons (codes_u32 _).last)
    (fun t p => (t, p.OFID)) (by rintro ⟨_, _⟩ _ rfl; rfl) (fun _ _ => rfl)
    (by simp [TMsg.Fits]) (by simp [TMsg.body, TMsg.fields]) (fun _ _ _ h => h)

theorem decodes_Rstat : Decodes unmarshalRstat (fun p => (RMsg.stat p).Fits)
    (fun t p => (RMsg.stat p).body t) (fun p => (RMsg.stat p).slack) :=
  Pkt.decodes rfl (codes_tag.cons (codes_data16 _).last)
    (fun t p => (t, p.B)) (by rintro ⟨_, _⟩ _ rfl; rfl) (fun _ _ => rfl)
    (by simp [RMsg.Fits]) (by simp [RMsg.body, RMsg.fields]) (fun _ _ _ h => h)

theorem decodes_Twstat : Decodes unmarshalTwstat (fun p => (TMsg.wstat p).Fits)
    (fun t p => (TMsg.wstat p).body t) (fun p => (TMsg.wstat p).slack) :=
  Pkt.decodes rfl (codes_tag.cons ((codes_u32 _).cons (codes_data16 _).last))
    (fun t p => (t, p.OFID, p.B)) (by rintro ⟨_, _, _⟩ _ rfl; rfl) (fun _ _ => rfl)
    (by simp [TMsg.Fits]) (by simp [TMsg.body, TMsg.fields]) (fun _ _ _ h => h)

theorem decodes_Tclunk : Decodes unmarshalTclunk (fun p => (TMsg.clunk p).Fits)
    (fun t p => (TMsg.clunk p).body t) (fun p => (TMsg.clunk p).slack) :=
  Pkt.decodes rfl (codes_tag.cons (codes_u32 _).last)
    (fun t p => (t, p.OFID)) (by rintro ⟨_, _⟩ _ rfl; rfl) (fun _ _ => rfl)
    (by simp [TMsg.Fits]) (by simp [TMsg.body, TMsg.fields]) (fun _ _ _ h => h)

theorem decodes_Tremove : Decodes unmarshalTremove (fun p => (TMsg.remove p).Fits)
    (fun t p => (TMsg.remove p).body t) (fun p => (TMsg.remove p).slack) :=
  Pkt.decodes rfl (codes_tag.cons (codes_u32 _).last)
    (fun t p => (t, p.OFID)) (by rintro ⟨_, _⟩ _ rfl; rfl) (fun _ _ => rfl)
    (by simp [TMsg.Fits]) (by simp [TMsg.body, TMsg.fields]) (fun _ _ _ h => h)

theorem decodes_Tread : Decodes unmarshalTread (fun p => (TMsg.read p).Fits)
    (fun t p => (TMsg.read p).body t) (fun p => (TMsg.read p).slack) :=
  Pkt.decodes rfl (codes_tag.cons ((codes_u32 _).cons ((codes_u64 _).cons (codes_count _).last)))
    (fun t p => (t, p.OFID, p.Off, p.Len)) (by rintro ⟨_, _, _, _⟩ _ rfl; rfl) (fun _ _ => rfl)
    (by simp [TMsg.Fits]) (by simp [TMsg.body, TMsg.fields]) (fun _ _ _ h => h)

theorem decodes_Rread : Decodes unmarshalRread (fun p => (RMsg.read p).Fits)
    (fun t p => (RMsg.read p).body t) (fun p => (RMsg.read p).slack) :=
  Pkt.decodes rfl (codes_tag.cons (codes_data32 _).last)
    (fun t p => (t, p.Data)) (by rintro ⟨_, _⟩ _ rfl; rfl) (fun _ _ => rfl)
    (by simp [RMsg.Fits]) (by simp [RMsg.body, RMsg.fields]) (fun _ _ _ h => h)

theorem decodes_Twrite : Decodes unmarshalTwrite (fun p => (TMsg.write p).Fits)
    (fun t p => (TMsg.write p).body t) (fun p => (TMsg.write p).slack) :=
  Pkt.decodes rfl (codes_tag.cons ((codes_u32 _).cons ((codes_u64 _).cons (codes_data32 _).last)))
    (fun t p => (t, p.OFID, p.Off, p.Data)) (by rintro ⟨_, _, _, _⟩ _ rfl; rfl) (fun _ _ => rfl)
    (by simp [TMsg.Fits]) (by simp [TMsg.body, TMsg.fields]) (fun _ _ _ h => h)

theorem decodes_Rwrite : Decodes unmarshalRwrite (fun p => (RMsg.write p).Fits)
    (fun t p => (RMsg.write p).body t) (fun p => (RMsg.write p).slack) :=
  Pkt.decodes rfl (codes_tag.cons (codes_count _).last)
    (fun t p => (t, p.RLen)) (by rintro ⟨_, _⟩ _ rfl; rfl) (fun _ _ => rfl)
    (by simp [RMsg.Fits]) (by simp [RMsg.body, RMsg.fields]) (fun _ _ _ h => h)

theorem decodes_Rerror : Decodes unmarshalRerror (fun p => (RMsg.error p).Fits)
    (fun t p => (RMsg.error p).body t) (fun p => (RMsg.error p).slack) :=
  Pkt.decodes rfl (codes_tag.cons (codes_string _).last)
    (fun t p => (t, p.Error)) (by rintro ⟨_, _⟩ _ rfl; rfl) (fun _ _ => rfl)
    (by simp [RMsg.Fits]) (by simp [RMsg.body, RMsg.fields]) (fun _ _ _ h => h)

theorem decodes_Rflush : Decodes unmarshalRflush (fun p => (RMsg.flush p).Fits)
    (fun t p => (RMsg.flush p).body t) (fun p => (RMsg.flush p).slack) :=
  Pkt.decodes rfl codes_tag.last (fun t _ => t) (by intro _ _ _; rfl) (fun _ _ => rfl)
    (by simp [RMsg.Fits]) (by simp [RMsg.body, RMsg.fields])
    (by intro t r k h; simp only [intSlack, RMsg.slack] at *; omega)

theorem decodes_Rwstat : Decodes unmarshalRwstat (fun p => (RMsg.wstat p).Fits)
    (fun t p => (RMsg.wstat p).body t) (fun p => (RMsg.wstat p).slack) :=
  Pkt.decodes rfl codes_tag.last (fun t _ => t) (by intro _ _ _; rfl) (fun _ _ => rfl)
    (by simp [RMsg.Fits]) (by simp [RMsg.body, RMsg.fields])
    (by intro t r k h; simp only [intSlack, RMsg.slack] at *; omega)

theorem decodes_Rclunk : Decodes unmarshalRclunk (fun p => (RMsg.clunk p).Fits)
    (fun t p => (RMsg.clunk p).body t) (fun p => (RMsg.clunk p).slack) :=
  Pkt.decodes rfl codes_tag.last (fun t _ => t) (by intro _ _ _; rfl) (fun _ _ => rfl)
    (by simp [RMsg.Fits]) (by simp [RMsg.body, RMsg.fields])
    (by intro t r k h; simp only [intSlack, RMsg.slack] at *; omega)

theorem decodes_Rremove : Decodes unmarshalRremove (fun p => (RMsg.remove p).Fits)
    (fun t p => (RMsg.remove p).body t) (fun p => (RMsg.remove p).slack) :=
  Pkt.decodes rfl codes_tag.last (fun t _ => t) (by intro _ _ _; rfl) (fun _ _ => rfl)
    (by simp [RMsg.Fits]) (by simp [RMsg.body, RMsg.fields])
    (by intro t r k h; simp only [intSlack, RMsg.slack] at *; omega)

/-! ### all decoders at once -/

theorem Decodes.map {M N : Type} {dec : Buffer → Unm M} {fits : N → Prop} {body : Tag → N → Bytes}
    {slack : N → Nat → Prop} {c : M → N}
    (h : Decodes dec (fun p => fits (c p)) (fun t p => body t (c p)) (fun p => slack (c p))) :
    (∀ pre spare t p, fits (c p) → (dec ⟨pre, body t (c p), spare⟩).map c =
        .done (c p) t none ⟨pre ++ body t (c p), [], spare⟩) ∧
    (∀ pre rest spare t p, fits (c p) → rest ≠ [] → (dec ⟨pre, body t (c p) ++ rest, spare⟩).map c =
      .done (c p) t (some (.tooLong rest.length)) ⟨pre ++ body t (c p), rest, spare⟩) ∧
    (∀ b m t b', (dec b).map c = .done m t none b' →
        (∃ p, m = c p) ∧ fits m ∧ b.unread <+: body t m ∧ b'.unread = []) ∧
    (∀ pre spare t p w m' t' b', fits (c p) → w <+: body t (c p) → w.length < (body t (c p)).length →
      (dec ⟨pre, w, spare⟩).map c = .done m' t' none b' →
      slack (c p) ((body t (c p)).length - w.length)) := by
  refine ⟨?_, ?_, ?_, ?_⟩
  · intro pre spare t p hp
    rw [h.fwd pre spare t p hp]; rfl
  · intro pre rest spare t p hp hr
    rw [h.trail pre rest spare t p hp hr]; rfl
  · intro b m t b' hb
    cases hd : dec b with
    | panic => rw [hd] at hb; cases hb
    | done r t₁ e b₁ =>
      rw [hd] at hb
      injection hb with h1 h2 h3 h4
      subst h1 h2 h3 h4
      exact ⟨⟨r, rfl⟩, h.inv _ _ _ _ hd⟩
  · intro pre spare t p w m' t' b' hp hw hl hb
    cases hd : dec ⟨pre, w, spare⟩ with
    | panic => rw [hd] at hb; cases hb
    | done r t₁ e b₁ =>
      rw [hd] at hb
      injection hb with h1 h2 h3 h4
      subst h3
      exact h.trunc _ _ _ _ _ _ _ _ hp hw hl hd

/-- the decoder of requests of the kind of `m` -/
def decT (m : TMsg) (b : Buffer) : Unm TMsg :=
  match m with
  | .version _ => (unmarshalTversion b).map .version
  | .attach _ => (unmarshalTattach b).map .attach
  | .flush _ => (unmarshalTflush b).map .flush
  | .walk _ => (unmarshalTwalk b).map .walk
  | .open_ _ => (unmarshalTopen b).map .open_
  | .create _ => (unmarshalTcreate b).map .create
  | .stat _ => (unmarshalTstat b).map .stat
  | .wstat _ => (unmarshalTwstat b).map .wstat
  | .clunk _ => (unmarshalTclunk b).map .clunk
  | .remove _ => (unmarshalTremove b).map .remove
  | .read _ => (unmarshalTread b).map .read
  | .write _ => (unmarshalTwrite b).map .write

def decR (m : RMsg) (b : Buffer) : Unm RMsg :=
  match m with
  | .error _ => (unmarshalRerror b).map .error
  | .version _ => (unmarshalRversion b).map .version
  | .attach _ => (unmarshalRattach b).map .attach
  | .flush _ => (unmarshalRflush b).map .flush
  | .walk _ => (unmarshalRwalk b).map .walk
  | .open_ _ => (unmarshalRopen b).map .open_
  | .create _ => (unmarshalRcreate b).map .create
  | .stat _ => (unmarshalRstat b).map .stat
  | .wstat _ => (unmarshalRwstat b).map .wstat
  | .clunk _ => (unmarshalRclunk b).map .clunk
  | .remove _ => (unmarshalRremove b).map .remove
  | .read _ => (unmarshalRread b).map .read
  | .write _ => (unmarshalRwrite b).map .write

theorem decodeT_ty (m : TMsg) : decodeT m.ty = some (decT m) := by cases m <;> rfl
theorem decodeR_ty (m : RMsg) : decodeR m.ty = some (decR m) := by cases m <;> rfl

/-- The four laws for the decoder of the kind of `m`. -/
structure LawsT (m : TMsg) : Prop where
  fwd : m.Fits → ∀ pre spare t,
    decT m ⟨pre, m.body t, spare⟩ = .done m t none ⟨pre ++ m.body t, [], spare⟩
  trail : m.Fits → ∀ pre rest spare t, rest ≠ [] →
    decT m ⟨pre, m.body t ++ rest, spare⟩ =
      .done m t (some (.tooLong rest.length)) ⟨pre ++ m.body t, rest, spare⟩
  inv : ∀ b m' t b', decT m b = .done m' t none b' →
    m'.ty = m.ty ∧ m'.Fits ∧ b.unread <+: m'.body t ∧ b'.unread = []
  trunc : m.Fits → ∀ pre spare t w m' t' b', w <+: m.body t → w.length < (m.body t).length →
    decT m ⟨pre, w, spare⟩ = .done m' t' none b' → m.slack ((m.body t).length - w.length)

theorem lawsT (m : TMsg) : LawsT m := by
  cases m with
  | version p =>
    have h := decodes_Tversion.map (fits := TMsg.Fits) (body := fun t m => m.body t) (slack := TMsg.slack)
    exact ⟨fun hm _ _ _ => h.1 _ _ _ _ hm, fun hm _ _ _ _ hr => h.2.1 _ _ _ _ _ hm hr,
      fun b m' t b' hd => by obtain ⟨⟨q, rfl⟩, h'⟩ := h.2.2.1 b m' t b' hd; exact ⟨rfl, h'⟩,
      fun hm _ _ _ _ _ _ _ hw hl hd => h.2.2.2 _ _ _ _ _ _ _ _ hm hw hl hd⟩
  | attach p =>
    have h := decodes_Tattach.map (fits := TMsg.Fits) (body := fun t m => m.body t) (slack := TMsg.slack)
    exact ⟨fun hm _ _ _ => h.1 _ _ _ _ hm, fun hm _ _ _ _ hr => h.2.1 _ _ _ _ _ hm hr,
      fun b m' t b' hd => by obtain ⟨⟨q, rfl⟩, h'⟩ := h.2.2.1 b m' t b' hd; exact ⟨rfl, h'⟩,
      fun hm _ _ _ _ _ _ _ hw hl hd => h.2.2.2 _ _ _ _ _ _ _ _ hm hw hl hd⟩
  | flush p =>
    have h := decodes_Tflush.map (fits := TMsg.Fits) (body := fun t m => m.body t) (slack := TMsg.slack)
    exact ⟨fun hm _ _ _ => h.1 _ _ _ _ hm, fun hm _ _ _ _ hr => h.2.1 _ _ _ _ _ hm hr,
      fun b m' t b' hd => by obtain ⟨⟨q, rfl⟩, h'⟩ := h.2.2.1 b m' t b' hd; exact ⟨rfl, h'⟩,
      fun hm _ _ _ _ _ _ _ hw hl hd => h.2.2.2 _ _ _ _ _ _ _ _ hm hw hl hd⟩
  | walk p =>
    have h := decodes_Twalk.map (fits := TMsg.Fits) (body := fun t m => m.body t) (slack := TMsg.slack)
    exact ⟨fun hm _ _ _ => h.1 _ _ _ _ hm, fun hm _ _ _ _ hr => h.2.1 _ _ _ _ _ hm hr,
      fun b m' t b' hd => by obtain ⟨⟨q, rfl⟩, h'⟩ := h.2.2.1 b m' t b' hd; exact ⟨rfl, h'⟩,
      fun hm _ _ _ _ _ _ _ hw hl hd => h.2.2.2 _ _ _ _ _ _ _ _ hm hw hl hd⟩
  | open_ p =>
    have h := decodes_Topen.map (fits := TMsg.Fits) (body := fun t m => m.body t) (slack := TMsg.slack)
    exact ⟨fun hm _ _ _ => h.1 _ _ _ _ hm, fun hm _ _ _ _ hr => h.2.1 _ _ _ _ _ hm hr,
      fun b m' t b' hd => by obtain ⟨⟨q, rfl⟩, h'⟩ := h.2.2.1 b m' t b' hd; exact ⟨rfl, h'⟩,
      fun hm _ _ _ _ _ _ _ hw hl hd => h.2.2.2 _ _ _ _ _ _ _ _ hm hw hl hd⟩
  | create p =>
    have h := decodes_Tcreate.map (fits := TMsg.Fits) (body := fun t m => m.body t) (slack := TMsg.slack)
    exact ⟨fun hm _ _ _ => h.1 _ _ _ _ hm, fun hm _ _ _ _ hr => h.2.1 _ _ _ _ _ hm hr,
      fun b m' t b' hd => by obtain ⟨⟨q, rfl⟩, h'⟩ := h.2.2.1 b m' t b' hd; exact ⟨rfl, h'⟩,
      fun hm _ _ _ _ _ _ _ hw hl hd => h.2.2.2 _ _ _ _ _ _ _ _ hm hw hl hd⟩
  | stat p =>
    have h := decodes_Tstat.map (fits := TMsg.Fits) (body := fun t m => m.body t) (slack := TMsg.slack)
    exact ⟨fun hm _ _ _ => h.1 _ _ _ _ hm, fun hm _ _ _ _ hr => h.2.1 _ _ _ _ _ hm hr,
      fun b m' t b' hd => by obtain ⟨⟨q, rfl⟩, h'⟩ := h.2.2.1 b m' t b' hd; exact ⟨rfl, h'⟩,
      fun hm _ _ _ _ _ _ _ hw hl hd => h.2.2.2 _ _ _ _ _ _ _ _ hm hw hl hd⟩
  | wstat p =>
    have h := decodes_Twstat.map (fits := TMsg.Fits) (body := fun t m => m.body t) (slack := TMsg.slack)
    exact ⟨fun hm _ _ _ => h.1 _ _ _ _ hm, fun hm _ _ _ _ hr => h.2.1 _ _ _ _ _ hm hr,
      fun b m' t b' hd => by obtain ⟨⟨q, rfl⟩, h'⟩ := h.2.2.1 b m' t b' hd; exact ⟨rfl, h'⟩,
      fun hm _ _ _ _ _ _ _ hw hl hd => h.2.2.2 _ _ _ _ _ _ _ _ hm hw hl hd⟩
  | clunk p =>
    have h := decodes_Tclunk.map (fits := TMsg.Fits) (body := fun t m => m.body t) (slack := TMsg.slack)
    exact ⟨fun hm _ _ _ => h.1 _ _ _ _ hm, fun hm _ _ _ _ hr => h.2.1 _ _ _ _ _ hm hr,
      fun b m' t b' hd => by obtain ⟨⟨q, rfl⟩, h'⟩ := h.2.2.1 b m' t b' hd; exact ⟨rfl, h'⟩,
      fun hm _ _ _ _ _ _ _ hw hl hd => h.2.2.2 _ _ _ _ _ _ _ _ hm hw hl hd⟩
  | remove p =>
    have h := decodes_Tremove.map (fits := TMsg.Fits) (body := fun t m => m.body t) (slack := TMsg.slack)
    exact ⟨fun hm _ _ _ => h.1 _ _ _ _ hm, fun hm _ _ _ _ hr => h.2.1 _ _ _ _ _ hm hr,
      fun b m' t b' hd => by obtain ⟨⟨q, rfl⟩, h'⟩ := h.2.2.1 b m' t b' hd; exact ⟨rfl, h'⟩,
      fun hm _ _ _ _ _ _ _ hw hl hd => h.2.2.2 _ _ _ _ _ _ _ _ hm hw hl hd⟩
  | read p =>
    have h := decodes_Tread.map (fits := TMsg.Fits) (body := fun t m => m.body t) (slack := TMsg.slack)
    exact ⟨fun hm _ _ _ => h.1 _ _ _ _ hm, fun hm _ _ _ _ hr => h.2.1 _ _ _ _ _ hm hr,
      fun b m' t b' hd => by obtain ⟨⟨q, rfl⟩, h'⟩ := h.2.2.1 b m' t b' hd; exact ⟨rfl, h'⟩,
      fun hm _ _ _ _ _ _ _ hw hl hd => h.2.2.2 _ _ _ _ _ _ _ _ hm hw hl hd⟩
  | write p =>
    have h := decodes_Twrite.map (fits := TMsg.Fits) (body := fun t m => m.body t) (slack := TMsg.slack)
    exact ⟨fun hm _ _ _ => h.1 _ _ _ _ hm, fun hm _ _ _ _ hr => h.2.1 _ _ _ _ _ hm hr,
      fun b m' t b' hd => by obtain ⟨⟨q, rfl⟩, h'⟩ := h.2.2.1 b m' t b' hd; exact ⟨rfl, h'⟩,
      fun hm _ _ _ _ _ _ _ hw hl hd => h.2.2.2 _ _ _ _ _ _ _ _ hm hw hl hd⟩

/-- The four laws for the decoder of the kind of `m`. -/
structure LawsR (m : RMsg) : Prop where
  fwd : m.Fits → ∀ pre spare t,
    decR m ⟨pre, m.body t, spare⟩ = .done m t none ⟨pre ++ m.body t, [], spare⟩
  trail : m.Fits → ∀ pre rest spare t, rest ≠ [] →
    decR m ⟨pre, m.body t ++ rest, spare⟩ =
      .done m t (some (.tooLong rest.length)) ⟨pre ++ m.body t, rest, spare⟩
  inv : ∀ b m' t b', decR m b = .done m' t none b' →
    m'.ty = m.ty ∧ m'.Fits ∧ b.unread <+: m'.body t ∧ b'.unread = []
  trunc : m.Fits → ∀ pre spare t w m' t' b', w <+: m.body t → w.length < (m.body t).length →
    decR m ⟨pre, w, spare⟩ = .done m' t' none b' → m.slack ((m.body t).length - w.length)

theorem lawsR (m : RMsg) : LawsR m := by
  cases m with
  | error p =>
    have h := decodes_Rerror.map (fits := RMsg.Fits) (body := fun t m => m.body t) (slack := RMsg.slack)
    exact ⟨fun hm _ _ _ => h.1 _ _ _ _ hm, fun hm _ _ _ _ hr => h.2.1 _ _ _ _ _ hm hr,
      fun b m' t b' hd => by obtain ⟨⟨q, rfl⟩, h'⟩ := h.2.2.1 b m' t b' hd; exact ⟨rfl, h'⟩,
      fun hm _ _ _ _ _ _ _ hw hl hd => h.2.2.2 _ _ _ _ _ _ _ _ hm hw hl hd⟩
  | version p =>
    have h := decodes_Rversion.map (fits := RMsg.Fits) (body := fun t m => m.body t) (slack := RMsg.slack)
    exact ⟨fun hm _ _ _ => h.1 _ _ _ _ hm, fun hm _ _ _ _ hr => h.2.1 _ _ _ _ _ hm hr,
      fun b m' t b' hd => by obtain ⟨⟨q, rfl⟩, h'⟩ := h.2.2.1 b m' t b' hd; exact ⟨rfl, h'⟩,
      fun hm _ _ _ _ _ _ _ hw hl hd => h.2.2.2 _ _ _ _ _ _ _ _ hm hw hl hd⟩
  | attach p =>
    have h := decodes_Rattach.map (fits := RMsg.Fits) (body := fun t m => m.body t) (slack := RMsg.slack)
    exact ⟨fun hm _ _ _ => h.1 _ _ _ _ hm, fun hm _ _ _ _ hr => h.2.1 _ _ _ _ _ hm hr,
      fun b m' t b' hd => by obtain ⟨⟨q, rfl⟩, h'⟩ := h.2.2.1 b m' t b' hd; exact ⟨rfl, h'⟩,
      fun hm _ _ _ _ _ _ _ hw hl hd => h.2.2.2 _ _ _ _ _ _ _ _ hm hw hl hd⟩
  | flush p =>
    have h := decodes_Rflush.map (fits := RMsg.Fits) (body := fun t m => m.body t) (slack := RMsg.slack)
    exact ⟨fun hm _ _ _ => h.1 _ _ _ _ hm, fun hm _ _ _ _ hr => h.2.1 _ _ _ _ _ hm hr,
      fun b m' t b' hd => by obtain ⟨⟨q, rfl⟩, h'⟩ := h.2.2.1 b m' t b' hd; exact ⟨rfl, h'⟩,
      fun hm _ _ _ _ _ _ _ hw hl hd => h.2.2.2 _ _ _ _ _ _ _ _ hm hw hl hd⟩
  | walk p =>
    have h := decodes_Rwalk.map (fits := RMsg.Fits) (body := fun t m => m.body t) (slack := RMsg.slack)
    exact ⟨fun hm _ _ _ => h.1 _ _ _ _ hm, fun hm _ _ _ _ hr => h.2.1 _ _ _ _ _ hm hr,
      fun b m' t b' hd => by obtain ⟨⟨q, rfl⟩, h'⟩ := h.2.2.1 b m' t b' hd; exact ⟨rfl, h'⟩,
      fun hm _ _ _ _ _ _ _ hw hl hd => h.2.2.2 _ _ _ _ _ _ _ _ hm hw hl hd⟩
  | open_ p =>
    have h := decodes_Ropen.map (fits := RMsg.Fits) (body := fun t m => m.body t) (slack := RMsg.slack)
    exact ⟨fun hm _ _ _ => h.1 _ _ _ _ hm, fun hm _ _ _ _ hr => h.2.1 _ _ _ _ _ hm hr,
      fun b m' t b' hd => by obtain ⟨⟨q, rfl⟩, h'⟩ := h.2.2.1 b m' t b' hd; exact ⟨rfl, h'⟩,
      fun hm _ _ _ _ _ _ _ hw hl hd => h.2.2.2 _ _ _ _ _ _ _ _ hm hw hl hd⟩
  | create p =>
    have h := decodes_Rcreate.map (fits := RMsg.Fits) (body := fun t m => m.body t) (slack := RMsg.slack)
    exact ⟨fun hm _ _ _ => h.1 _ _ _ _ hm, fun hm _ _ _ _ hr => h.2.1 _ _ _ _ _ hm hr,
      fun b m' t b' hd => by obtain ⟨⟨q, rfl⟩, h'⟩ := h.2.2.1 b m' t b' hd; exact ⟨rfl, h'⟩,
      fun hm _ _ _ _ _ _ _ hw hl hd => h.2.2.2 _ _ _ _ _ _ _ _ hm hw hl hd⟩
  | stat p =>
    have h := decodes_Rstat.map (fits := RMsg.Fits) (body := fun t m => m.body t) (slack := RMsg.slack)
    exact ⟨fun hm _ _ _ => h.1 _ _ _ _ hm, fun hm _ _ _ _ hr => h.2.1 _ _ _ _ _ hm hr,
      fun b m' t b' hd => by obtain ⟨⟨q, rfl⟩, h'⟩ := h.2.2.1 b m' t b' hd; exact ⟨rfl, h'⟩,
      fun hm _ _ _ _ _ _ _ hw hl hd => h.2.2.2 _ _ _ _ _ _ _ _ hm hw hl hd⟩
  | wstat p =>
    have h := decodes_Rwstat.map (fits := RMsg.Fits) (body := fun t m => m.body t) (slack := RMsg.slack)
    exact ⟨fun hm _ _ _ => h.1 _ _ _ _ hm, fun hm _ _ _ _ hr => h.2.1 _ _ _ _ _ hm hr,
      fun b m' t b' hd => by obtain ⟨⟨q, rfl⟩, h'⟩ := h.2.2.1 b m' t b' hd; exact ⟨rfl, h'⟩,
      fun hm _ _ _ _ _ _ _ hw hl hd => h.2.2.2 _ _ _ _ _ _ _ _ hm hw hl hd⟩
  | clunk p =>
    have h := decodes_Rclunk.map (fits := RMsg.Fits) (body := fun t m => m.body t) (slack := RMsg.slack)
    exact ⟨fun hm _ _ _ => h.1 _ _ _ _ hm, fun hm _ _ _ _ hr => h.2.1 _ _ _ _ _ hm hr,
      fun b m' t b' hd => by obtain ⟨⟨q, rfl⟩, h'⟩ := h.2.2.1 b m' t b' hd; exact ⟨rfl, h'⟩,
      fun hm _ _ _ _ _ _ _ hw hl hd => h.2.2.2 _ _ _ _ _ _ _ _ hm hw hl hd⟩
  | remove p =>
    have h := decodes_Rremove.map (fits := RMsg.Fits) (body := fun t m => m.body t) (slack := RMsg.slack)
    exact ⟨fun hm _ _ _ => h.1 _ _ _ _ hm, fun hm _ _ _ _ hr => h.2.1 _ _ _ _ _ hm hr,
      fun b m' t b' hd => by obtain ⟨⟨q, rfl⟩, h'⟩ := h.2.2.1 b m' t b' hd; exact ⟨rfl, h'⟩,
      fun hm _ _ _ _ _ _ _ hw hl hd => h.2.2.2 _ _ _ _ _ _ _ _ hm hw hl hd⟩
  | read p =>
    have h := decodes_Rread.map (fits := RMsg.Fits) (body := fun t m => m.body t) (slack := RMsg.slack)
    exact ⟨fun hm _ _ _ => h.1 _ _ _ _ hm, fun hm _ _ _ _ hr => h.2.1 _ _ _ _ _ hm hr,
      fun b m' t b' hd => by obtain ⟨⟨q, rfl⟩, h'⟩ := h.2.2.1 b m' t b' hd; exact ⟨rfl, h'⟩,
      fun hm _ _ _ _ _ _ _ hw hl hd => h.2.2.2 _ _ _ _ _ _ _ _ hm hw hl hd⟩
  | write p =>
    have h := decodes_Rwrite.map (fits := RMsg.Fits) (body := fun t m => m.body t) (slack := RMsg.slack)
    exact ⟨fun hm _ _ _ => h.1 _ _ _ _ hm, fun hm _ _ _ _ hr => h.2.1 _ _ _ _ _ hm hr,
      fun b m' t b' hd => by obtain ⟨⟨q, rfl⟩, h'⟩ := h.2.2.1 b m' t b' hd; exact ⟨rfl, h'⟩,
      fun hm _ _ _ _ _ _ _ hw hl hd => h.2.2.2 _ _ _ _ _ _ _ _ hm hw hl hd⟩

/-! ### encoders -/

theorem putQID_eq (q : QID) : putQID q = qid q := by
  simp [putQID, qid, put8_eq, put32_eq, put64_eq]

theorem writeQIDs_eq (b : Buffer) (qs : List QID) :
    writeQIDs b qs = { b with unread := b.unread ++ (qs.map qid).flatten
                              spare := b.spare.drop (qs.map qid).flatten.length } := by
  induction qs generalizing b with
  | nil => simp [writeQIDs]
  | cons q qs ih => simp [writeQIDs, ih, Buffer.write, List.drop_drop, putQID_eq]

theorem writePaths_eq (b : Buffer) (ss : List GoString) :
    writePaths b ss = { b with unread := b.unread ++ (ss.map str).flatten
                               spare := b.spare.drop (ss.map str).flatten.length } := by
  induction ss generalizing b with
  | nil => simp [writePaths]
  | cons q qs ih =>
    simp [writePaths, ih, Buffer.write, List.drop_drop, putLen16_eq, str]
    omega

theorem patchSize_eq (pre spare : Bytes) (ty : MType) (rest : Bytes) :
    patchSize ⟨pre, 0 :: 0 :: 0 :: 0 :: ty :: rest, spare⟩ =
      ⟨pre, le 4 (4 + 1 + rest.length) ++ (ty :: rest), spare⟩ := by
  have h : (le 4 (4 + 1 + rest.length)).length = 4 := le_length _ _
  simp only [patchSize, Buffer.copyIn, Buffer.len, putLen32_eq, List.length_cons]
  have e : rest.length + 1 + 1 + 1 + 1 + 1 = 4 + 1 + rest.length := by omega
  rw [e, List.take_of_length_le (by rw [h]; omega), h]
  rfl

/-- What an encoder leaves in the buffer. -/
def encoded (b : Buffer) (p : Bytes) : Buffer := ⟨[], p, b.backing.drop p.length⟩

theorem encodeT_eq (b : Buffer) (t : Tag) (m : TMsg) : encodeT b t m = encoded b (m.packet t) := by
  cases m <;>
  simp [encodeT, encoded, TMsg.packet, Spec.packet, TMsg.type, TMsg.body, TMsg.fields, str,
    marshalTversion, marshalTattach, marshalTflush, marshalTwalk, marshalTopen, marshalTcreate,
    marshalTstat, marshalTwstat, marshalTclunk, marshalTremove, marshalTread, marshalTwrite,
    Buffer.write, Buffer.reset, Buffer.backing, hdr, writePaths_eq, putLen16_eq, putLen32_eq, put16_eq,
    put32_eq, put64_eq, put8_eq, putCount_eq, patchSize_eq] <;>
  first | rfl | exact ⟨rfl, by omega⟩

theorem encodeR_eq (b : Buffer) (t : Tag) (m : RMsg) : encodeR b t m = encoded b (m.packet t) := by
  cases m <;>
  simp [encodeR, encoded, RMsg.packet, Spec.packet, RMsg.type, RMsg.body, RMsg.fields, str,
    marshalRversion, marshalRattach, marshalRflush, marshalRwalk, marshalRopen, marshalRcreate,
    marshalRstat, marshalRwstat, marshalRclunk, marshalRremove, marshalRread, marshalRwrite, marshalRerror,
    Buffer.write, Buffer.reset, Buffer.backing, hdr, writeQIDs_eq, putLen16_eq, putLen32_eq, put16_eq,
    put32_eq, putQID_eq, putCount_eq, patchSize_eq] <;>
  first | rfl | exact ⟨rfl, by omega⟩

theorem marshaldir_eq (b : Buffer) (d : Dir) : marshaldir b d = encoded b (Spec.dir d) := by
  have hz (n : Nat) (x s : Bytes) (h : x.length = n) :
      (Buffer.copyIn ⟨[], 0 :: 0 :: x, s⟩ (putLen16 ((0 :: 0 :: x).length - 2))) = ⟨[], le 2 n ++ x, s⟩ := by
    simp [Buffer.copyIn, putLen16_eq, h]
    exact List.take_of_length_le (by simp)
  have e : marshaldir b d = Buffer.copyIn ⟨[], 0 :: 0 :: dirFields d, b.backing.drop (Spec.dir d).length⟩
      (putLen16 ((0 :: 0 :: dirFields d).length - 2)) := by
    simp [marshaldir, Buffer.write, Buffer.reset, Buffer.backing, put16_eq, put32_eq, putQID_eq, put64_eq,
      putLen16_eq, Buffer.len, dirFields, str, Spec.dir]
    congr 3; omega
  rw [e, hz _ _ _ rfl]; rfl

theorem decodes_dir : Codes
    (getU16 (fun v (r : Dir) => { r with Typ := v }) >>= fun _ =>
     getU32 (fun v r => { r with Dev := v }) >>= fun _ =>
     getQID (fun f r => { r with QID := f r.QID }) >>= fun _ =>
     getU32 (fun v r => { r with Mode := v }) >>= fun _ =>
     getU32 (fun v r => { r with Atime := v }) >>= fun _ =>
     getU32 (fun v r => { r with Mtime := v }) >>= fun _ =>
     getU64 (fun v r => { r with Length := v }) >>= fun _ =>
     getString (fun v r => { r with Name := v }) >>= fun _ =>
     getString (fun v r => { r with User := v }) >>= fun _ =>
     getString (fun v r => { r with Group := v }) >>= fun _ =>
     getString (fun v r => { r with ModUser := v }))
    DirFits dirFields (onR fun d _ => d) (fun d k => k = d.ModUser.length + 1) := by
  refine ((codes_u16 _).seq ((codes_u32 _).seq ((codes_qid _ (fun _ _ _ => rfl)).seq ((codes_u32 _).seq
    ((codes_u32 _).seq ((codes_u32 _).seq ((codes_u64 _).seq ((codes_string _).seq ((codes_string _).seq
    ((codes_string _).seq (codes_string _))))))))))).map
    (to := fun ⟨a, b, c, d, e, f, g, h, i, j, k⟩ => ⟨a, b, c, d, e, f, g, h, i, j, k⟩)
    (of := fun d => (d.Typ, d.Dev, d.QID, d.Mode, d.Atime, d.Mtime, d.Length, d.Name, d.User, d.Group,
      d.ModUser)) (fun _ => rfl) ?_ ?_ ?_ ?_
  · simp [DirFits]
  · simp [dirFields]
  · intro d tr; simp [onR]
  · intro d k _ h; exact h

end Ninep
