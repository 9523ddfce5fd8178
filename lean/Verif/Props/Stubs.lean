import Verif.Gen.Stubs
import Verif.Props.Gen
/-
C91: the names in the code that the generator writes.
-/

namespace Ninep
namespace Gen
open Spec Client

/-! ### lists of names -/

def withCommas (ns : List String) : List Word := ns.flatMap fun n => [.id n, .comma]

theorem withCommas_snoc (ns : List String) (n : String) : withCommas (ns ++ [n]) = withCommas ns ++ [.id n, .comma] := by
  simp [withCommas]

theorem genRets_eq (ns : List String) : genRets ns = withCommas ns := by
  have : ∀ acc, ns.foldl (fun l n => l ++ [Word.id n, .comma]) acc = acc ++ withCommas ns := by
    induction ns with
    | nil => simp [withCommas]
    | cons n ns ih => intro acc; rw [List.foldl_cons, ih]; simp [withCommas]
  exact this []

theorem genParms_snoc (ns : List String) (n : String) :
    genParms (ns ++ [n]) = ((genParms ns).1 ++ (genParms ns).2 ++ [.id n], [.comma]) := by
  simp [genParms, List.foldl_append]

theorem genParms_both (ns : List String) : (genParms ns).1 ++ (genParms ns).2 = withCommas ns := by
  have h : ∀ l : List String, (genParms l.reverse).1 ++ (genParms l.reverse).2 = withCommas l.reverse := by
    intro l
    induction l with
    | nil => rfl
    | cons n l ih => rw [List.reverse_cons, genParms_snoc, withCommas_snoc, ← ih]; simp
  simpa using h ns.reverse

theorem idents_commas (ns : List String) (w : List Word) : idents (withCommas ns ++ w) = (idents w).map (ns ++ ·) := by
  induction ns with
  | nil => simp [withCommas]
  | cons n ns ih =>
    show idents (.id n :: .comma :: (withCommas ns ++ w)) = _
    rw [idents, ih]
    simp [Option.map_map, Function.comp_def]

theorem args_commas (ns : List String) (w : List Word) : args (withCommas ns ++ w) = (args w).map (ns ++ ·) := by
  induction ns with
  | nil => simp [withCommas]
  | cons n ns ih =>
    show args (.id n :: .comma :: (withCommas ns ++ w)) = _
    rw [args, ih]
    simp [Option.map_map, Function.comp_def]

theorem args_parms (ns : List String) : args (genParms ns).1 = some ns := by
  have h : ∀ l : List String, args (genParms l.reverse).1 = some l.reverse := by
    intro l
    cases l with
    | nil => rfl
    | cons n l => rw [List.reverse_cons, genParms_snoc, genParms_both, args_commas]; rfl
  simpa using h ns.reverse

theorem args_bt (ns : List String) : args ([.id "b", .comma, .id "t", .comma] ++ (genParms ns).1) = some (["b", "t"] ++ ns) := by
  show (Option.map _ (Option.map _ (args (genParms ns).1))) = _
  rw [args_parms]; rfl

theorem idents_lhs (ns : List String) (w : List Word) :
    idents ((genParms ns).1 ++ (genParms ns).2 ++ w) = (idents w).map (ns ++ ·) := by
  rw [genParms_both, idents_commas]

theorem idents_rets (ns : List String) (w : List Word) : idents (genRets ns ++ w) = (idents w).map (ns ++ ·) := by
  rw [genRets_eq, idents_commas]

/-! ### scopes -/

/-- `env` with these variables in front of it -/
def over (env : Env) (ns : List String) (rs : List Ref) : Env := fun n => match (ns.zip rs).lookup n with
  | some r => some r
  | none => env n

theorem declare_eq {env : Env} {ns : List String} {rs : List Ref} (h : ns.Nodup) (hl : ns.length = rs.length) :
    declare env ns rs = some (over env ns rs) := if_pos ⟨h, hl⟩

theorem over_nil (env : Env) (rs : List Ref) : over env [] rs = env := rfl

theorem over_cons (env : Env) (m : String) (ns : List String) (r : Ref) (rs : List Ref) (n : String) :
    over env (m :: ns) (r :: rs) n = if n = m then some r else over env ns rs n := by
  unfold over
  rw [List.zip_cons_cons, List.lookup_cons]
  by_cases h : n = m
  · rw [if_pos h, beq_iff_eq.mpr h]
  · rw [if_neg h, beq_eq_false_iff_ne.mpr h]

theorem over_not_mem (env : Env) : ∀ (ns : List String) (rs : List Ref) (n : String), n ∉ ns → over env ns rs n = env n
  | [], _, _, _ => rfl
  | _ :: _, [], _, _ => rfl
  | m :: ns, r :: rs, n, h => by
    rw [List.mem_cons, not_or] at h
    rw [over_cons, if_neg h.1, over_not_mem env ns rs n h.2]

theorem over_append (env : Env) : ∀ (a b : List String) (ra rb : List Ref), a.length = ra.length →
    over env (a ++ b) (ra ++ rb) = over (over env b rb) a ra
  | [], _, [], _, _ => rfl
  | m :: a, b, r :: ra, rb, h => by
    funext n
    rw [List.cons_append, List.cons_append, over_cons, over_cons, over_append env a b ra rb (by simpa using h)]
  | [], _, _ :: _, _, h => by simp at h
  | _ :: _, _, [], _, h => by simp at h

theorem values_congr (e e' : Env) (ns : List String) (h : ∀ n ∈ ns, e n = e' n) : values e ns = values e' ns := by
  unfold values
  induction ns with
  | nil => rfl
  | cons n ns ih =>
    rw [List.mapM_cons, List.mapM_cons, ih fun m hm => h m (List.mem_cons_of_mem _ hm), h n (List.mem_cons_self ..)]

theorem values_over (env : Env) : ∀ (ns : List String) (vs : List AnyVal), ns.Nodup → ns.length = vs.length →
    values (over env ns (vs.map .field)) ns = some vs
  | [], [], _, _ => rfl
  | n :: ns, v :: vs, h, hl => by
    have h := List.nodup_cons.mp h
    have ih := values_over env ns vs h.2 (by simpa using hl)
    rw [← values_congr (over env (n :: ns) ((v :: vs).map .field))] at ih
    · unfold values at ih ⊢
      rw [List.mapM_cons, ih]
      show (match over env (n :: ns) (Ref.field v :: vs.map .field) n with
        | some (.field v) => some v
        | _ => none).bind _ = _
      rw [over_cons, if_pos rfl]
      rfl
    · intro m hm
      show over env (n :: ns) (Ref.field v :: vs.map .field) m = _
      rw [over_cons, if_neg fun (e : m = n) => h.1 (e ▸ hm)]
  | [], _ :: _, _, h => by simp at h
  | _ :: _, [], _, h => by simp at h

/-- the template's own variables have lower case names -/
def Lower (l : List String) : Prop := l.all (fun n => exported n = false) = true

theorem Lower.not_mem {l : List String} (h : Lower l) {n : String} (hn : exported n = true) : n ∉ l := by
  intro hm
  have := List.all_eq_true.mp h n hm
  simp [hn] at this

theorem nodup_lower {l ns : List String} (h : Lower l) (hl : l.Nodup) (hn : ns.Nodup) (he : ∀ n ∈ ns, exported n = true) :
    (l ++ ns).Nodup := by
  rw [List.nodup_append]
  exact ⟨hl, hn, fun a ha b hb e => h.not_mem (he b hb) (e ▸ ha)⟩

theorem nodup_lower' {l ns : List String} (h : Lower l) (hl : l.Nodup) (hn : ns.Nodup) (he : ∀ n ∈ ns, exported n = true) :
    (ns ++ l).Nodup := by
  rw [List.nodup_append]
  exact ⟨hn, hl, fun a ha b hb e => h.not_mem (he a ha) (e ▸ hb)⟩

/-! ### values as lists -/

theorem ofList_toList : (fs : Fields) → (v : fs.Val) → ofList fs (toList fs v) = some v
  | .nil, _ => rfl
  | .cons t fs, v => by
    rw [toList, ofList, dif_pos rfl, ofList_toList fs v.2]; rfl

theorem toList_length : (d : Desc) → (v : d.schema.Val) → (toList d.schema v).length = d.names.length
  | [], _ => rfl
  | _ :: d, v => congrArg (· + 1) (toList_length d v.2)

/-! ### what the code should be -/

def mapCall {α β : Type} (f : α → β) : CallRes α → CallRes β
  | .panic => .panic
  | .ret p e => .ret (f p) e

/-- the encoder that a packet should get -/
def wireEnc (c : MType) (d : Desc) (b : Buffer) (t : Tag) (v : d.schema.Val) : Buffer :=
  encoded b (packet c.toNat (le 2 t.toNat ++ wireFields d.schema v))

/-- The six functions for a packet are accepted by the compiler, and each does what its name says: the encoders write the
message of their type, the decoders are those of the fields, the server stub decodes, calls the method with the decoded
values in their order and encodes its results or its error, and the client stub sends the encoded parameters and returns the
decoded results or the error. -/
structure Pack.Sound (p : Pack) : Prop where
  encT : ∀ b t v, marshalText p.tn p.tc p.T b t (toList p.T.schema v) = some (wireEnc p.tc p.T b t v)
  encR : ∀ b t v, marshalText p.rn p.rc p.R b t (toList p.R.schema v) = some (wireEnc p.rc p.R b t v)
  decT : ∀ b, unmarshalText p.T b = some ((genUnmarshal p.T.schema b).map (toList p.T.schema))
  decR : ∀ b, unmarshalText p.R b = some ((genUnmarshal p.R.schema b).map (toList p.R.schema))
  server : ∀ (σ : Type) (m : p.T.schema.Val → σ → NRes σ p.R.schema.Val) (s : Server σ) (b : Buffer),
    p.server m s b = some (srvCall (genUnmarshal p.T.schema) m (wireEnc p.rc p.R) s b)
  client : ∀ v, ∃ k, p.call v = some (wireEnc p.tc p.T {} 0 v, k) ∧
    ∀ spare bb, k spare bb = some (mapCall (toList p.R.schema) (callRes (genUnmarshal p.R.schema) p.R.schema.zero spare bb))

/-- the names of the package that the stubs use -/
def Pack.reserved (p : Pack) : List String :=
  ["Tag", "MType", "Rerror", "RPCCall", "MarshalRerrorPkt", "UnmarshalRerrorPkt",
    "Marshal" ++ p.tn ++ "Pkt", "Marshal" ++ p.rn ++ "Pkt", "Unmarshal" ++ p.rn ++ "Pkt"]

/-- names that are safe -/
structure Pack.Clean (p : Pack) : Prop where
  exported : ∀ n ∈ p.T.names ++ p.R.names, exported n = true
  /-- all different -/
  nodup : (p.T.names ++ p.R.names).Nodup
  /-- not used by the stubs -/
  reserved : ∀ n ∈ p.reserved, n ∉ p.T.names ++ p.R.names
  /-- no half has a field with the name of its message -/
  ownT : p.tn ∉ p.T.names
  ownR : p.rn ∉ p.R.names
  /-- nor one with the name of the type of a number in this half (or `QID`, if there is a list of those) -/
  convT : ∀ n ∈ p.T.flatMap Field.conv, n ∉ p.T.names ∧ n ∉ ["b", "u", "l", "t", "err"]
  convR : ∀ n ∈ p.R.flatMap Field.conv, n ∉ p.R.names ∧ n ∉ ["b", "u", "l", "t", "err"]

/-- The constants of the messages are exported and not zero: protocol.go:30-58. -/
structure Pack.Named (p : Pack) : Prop where
  t : Gen.exported p.tn = true
  r : Gen.exported p.rn = true
  tc : p.tc ≠ 0
  rc : p.rc ≠ 0

/-! ### each template -/

theorem all_exported {ns : List String} (h : ∀ n ∈ ns, exported n = true) : ns.all exported = true := List.all_eq_true.mpr h

theorem over_lower (env : Env) {l : List String} (h : Lower l) (rs : List Ref) {n : String} (hn : exported n = true) :
    over env l rs n = env n := over_not_mem env l rs n (h.not_mem hn)

theorem over_exported (env : Env) {ns : List String} (h : ∀ n ∈ ns, exported n = true) (rs : List Ref) {n : String}
    (hn : exported n = false) : over env ns rs n = env n :=
  over_not_mem env ns rs n fun hm => by rw [h n hm] at hn; cases hn

theorem values_lower (env : Env) {l ns : List String} (h : Lower l) (rs : List Ref) (hn : ∀ n ∈ ns, exported n = true) :
    values (over env l rs) ns = values env ns :=
  values_congr _ _ _ fun n hm => over_lower env h rs (hn n hm)

theorem marshalText_eq (name : String) (c : MType) (d : Desc) (he : ∀ n ∈ d.names, exported n = true) (hn : d.names.Nodup)
    (hx : exported name = true) (hr : name ∉ d.names) (b : Buffer) (t : Tag) (v : d.schema.Val) :
    marshalText name c d b t (toList d.schema v) = some (wireEnc c d b t v) := by
  have hl := toList_length d v
  have low : Lower ["b", "t"] := by unfold Lower; decide
  unfold marshalText
  rw [args_bt]
  simp only [Option.bind_eq_bind, Option.bind_some]
  rw [declare_eq (ns := ["b", "t"] ++ d.names) (nodup_lower low (by decide) hn he) (by simp [own, hl])]
  rw [over_append _ _ _ _ _ rfl]
  generalize hE : over (over (fun _ => none) d.names ((toList d.schema v).map .field)) ["b", "t"] (own ["b", "t"]) = E
  have h1 : E name = none := by
    rw [← hE, over_lower _ low _ hx, over_not_mem _ _ _ _ hr]
  have h2 : E "l" = none := by
    rw [← hE, over_not_mem _ _ _ _ (by decide), over_exported _ he _ (by decide)]
  have h3 : values E d.names = some (toList d.schema v) := by
    rw [← hE, values_lower _ low _ he, values_over _ _ _ hn hl.symm]
  have hb : isOwn E "b" = some () := by rw [← hE]; rfl
  have ht : isOwn E "t" = some () := by rw [← hE]; rfl
  simp only [all_exported he, Option.bind_some, pkgLevel, h1, h2, h3, hb, ht, ofList_toList, genMarshal_eq]
  rfl

theorem forM_some {α : Type} (f : α → Option Unit) : ∀ l : List α, (∀ a ∈ l, f a = some ()) → l.forM f = some ()
  | [], _ => rfl
  | a :: l, h => by
    show (f a).bind (fun _ => l.forM f) = some ()
    rw [h a (List.mem_cons_self ..)]
    exact forM_some f l fun b hb => h b (List.mem_cons_of_mem _ hb)

/-- names of types that are not variables of the decoder -/
theorem unmarshalText_eq (d : Desc) (he : ∀ n ∈ d.names, exported n = true) (hn : d.names.Nodup) (ht : "Tag" ∉ d.names)
    (hc : ∀ n ∈ d.flatMap Field.conv, n ∉ d.names ∧ n ∉ ["b", "u", "l", "t", "err"]) (b : Buffer) :
    unmarshalText d b = some ((genUnmarshal d.schema b).map (toList d.schema)) := by
  have hl := toList_length d d.schema.zero
  have low : Lower ["b", "u", "l"] := by unfold Lower; decide
  have low' : Lower ["t", "err"] := by unfold Lower; decide
  unfold unmarshalText
  rw [idents_rets]
  simp only [all_exported he, idents, Option.map_some, Option.bind_eq_bind, Option.bind_some]
  have hnd : (["b", "u", "l"] ++ (d.names ++ ["t", "err"])).Nodup := by
    have h1 := nodup_lower' low' (by decide) hn he
    rw [List.nodup_append]
    refine ⟨by decide, h1, fun a ha c hc e => ?_⟩
    subst e
    rcases List.mem_append.mp hc with h | h
    · exact low.not_mem (he a h) ha
    · have : ∀ a ∈ ["t", "err"], a ∉ ["b", "u", "l"] := by decide
      exact this a h ha
  rw [declare_eq hnd (by simp [own, hl]), List.append_assoc, over_append _ _ _ _ _ rfl, over_append _ _ _ _ _ (by simp [hl])]
  generalize hE : over (over (over (fun _ => none) ["t", "err"] (own ["t", "err"])) d.names
    ((toList d.schema d.schema.zero).map .field)) ["b", "u", "l"] (own ["b", "u", "l"]) = E
  have h1 : ∀ n, n ∉ d.names → n ∉ ["b", "u", "l", "t", "err"] → pkgLevel E n = some () := by
    intro n h1 h2
    have : E n = none := by
      rw [← hE, over_not_mem _ _ _ _ (fun h => h2 (List.mem_append_left ["t", "err"] h)), over_not_mem _ _ _ _ h1,
        over_not_mem _ _ _ _ (fun h => h2 (List.mem_append_right ["b", "u", "l"] h))]
    unfold pkgLevel; rw [this]; rfl
  have h3 : values E d.names = some (toList d.schema d.schema.zero) := by
    rw [← hE, values_lower _ low _ he, values_over _ _ _ hn hl.symm]
  have h4 : (d.flatMap Field.conv).forM (pkgLevel E) = some () :=
    forM_some _ _ fun n hm => h1 n (hc n hm).1 (hc n hm).2
  simp only [Option.bind_some, h1 "Tag" ht (by decide), h3, h4, ofList_toList]
  rfl

theorem pkg_none {env : Env} {n : String} (h : env n = none) : pkgLevel env n = some () := by
  unfold pkgLevel; rw [h]; rfl

theorem own_length (l : List String) : (own l).length = l.length := List.length_map ..

theorem exported_fun (x y : String) (h : exported x = true) : exported (x ++ y ++ "Pkt") = true := by
  unfold exported at h ⊢
  rw [String.toList_append, String.toList_append]
  cases hx : x.toList with
  | nil => rw [hx] at h; cases h
  | cons c cs => rw [hx] at h; exact h

theorem reserved_exported (p : Pack) :
    ∀ n ∈ p.reserved, exported n = true := by
  intro n hn
  simp only [Pack.reserved, List.mem_cons, List.not_mem_nil, or_false] at hn
  rcases hn with h | h | h | h | h | h | h | h | h <;> subst h
  all_goals first | decide | exact exported_fun _ _ (by decide)

/-- what an `:=` with some fields and some of the template's variables makes of the scope -/
theorem declare_fields (env : Env) (ns : List String) (vs : List AnyVal) (l : List String) (he : ∀ n ∈ ns, exported n = true)
    (hn : ns.Nodup) (hv : vs.length = ns.length) (h : Lower l) (hl : l.Nodup) :
    declare env (ns ++ l) (vs.map .field ++ own l) = some (over (over env l (own l)) ns (vs.map .field)) := by
  rw [declare_eq (nodup_lower' h hl hn he) (by simp [own_length, hv]), over_append _ _ _ _ _ (by simp [hv])]

theorem srvText_eq (p : Pack) (h : p.Clean)
    (henc : ∀ b t v, marshalText p.rn p.rc p.R b t (toList p.R.schema v) = some (wireEnc p.rc p.R b t v))
    {σ : Type} (m : p.T.schema.Val → σ → NRes σ p.R.schema.Val) (s : Server σ) (b : Buffer) :
    srvText p.tn p.rn p.T p.R (fun b => (genUnmarshal p.T.schema b).map (toList p.T.schema)) (onLists p.T.schema p.R.schema m)
      (marshalText p.rn p.rc p.R) s b = some (srvCall (genUnmarshal p.T.schema) m (wireEnc p.rc p.R) s b) := by
  have heT : ∀ n ∈ p.T.names, exported n = true := fun n hn => h.exported n (List.mem_append_left _ hn)
  have heR : ∀ n ∈ p.R.names, exported n = true := fun n hn => h.exported n (List.mem_append_right _ hn)
  have hnT : p.T.names.Nodup := (List.nodup_append.mp h.nodup).1
  have hnR : p.R.names.Nodup := (List.nodup_append.mp h.nodup).2.1
  have low1 : Lower ["t", "err"] := by unfold Lower; decide
  have low2 : Lower ["err"] := by unfold Lower; decide
  have low0 : Lower ["s", "b", "err"] := by unfold Lower; decide
  have hres : ∀ n ∈ p.reserved, n ∉ p.T.names ∧ n ∉ p.R.names := fun n hn =>
    ⟨fun hm => h.reserved n hn (List.mem_append_left _ hm), fun hm => h.reserved n hn (List.mem_append_right _ hm)⟩
  have hexp := reserved_exported p
  have hnone : ∀ n ∈ p.reserved, ∀ xs ys : List AnyVal,
      over (over (over (over (over (fun _ => none) ["s", "b", "err"] (own ["s", "b", "err"])) ["t", "err"] (own ["t", "err"]))
        p.T.names (xs.map .field)) ["err"] (own ["err"])) p.R.names (ys.map .field) n = none := by
    intro n hn xs ys
    have hx := hexp n hn
    rw [over_not_mem _ _ _ _ (hres n hn).2, over_lower _ low2 _ hx,
      over_not_mem _ _ _ _ (hres n hn).1, over_lower _ low1 _ hx, over_lower _ low0 _ hx]
  have hlow : ∀ n, exported n = false → ∀ (env : Env) (xs ys : List AnyVal), 
      over (over (over env p.T.names (xs.map .field)) ["err"] (own ["err"])) p.R.names (ys.map .field) n =
        over env ["err"] (own ["err"]) n := by
    intro n hn env xs ys
    rw [over_exported _ heR _ hn]
    by_cases he : n = "err"
    · subst he; rfl
    · rw [over_not_mem _ ["err"] _ _ (by simpa using he), over_not_mem _ ["err"] _ _ (by simpa using he),
        over_exported _ heT _ hn]
  unfold srvText
  rw [List.all_eq_true.mpr h.exported]
  rw [declare_eq (by decide) rfl]
  simp only [idents_lhs, idents, Option.bind_eq_bind, Option.bind_some, Option.map_some, Bool.true_eq_false, if_false]
  rw [pkg_none (over_lower _ low0 _ (exported_fun "Unmarshal" p.tn (by decide)))]
  simp only [Option.bind_some]
  unfold srvCall
  cases hd : genUnmarshal p.T.schema b with
  | panic => rfl
  | done v t e b =>
    simp only [Unm.map]
    rw [declare_fields _ _ _ _ heT hnT (toList_length _ _) low1 (by decide)]
    simp only [Option.bind_some, args_parms, args_bt]
    have hs : isOwn (over (over (over (fun _ => none) ["s", "b", "err"] (own ["s", "b", "err"])) ["t", "err"] (own ["t", "err"]))
        p.T.names ((toList p.T.schema v).map .field)) "s" = some () := by
      unfold isOwn; rw [over_exported _ heT _ (by decide)]; rfl
    rw [hs, values_over _ _ _ hnT (toList_length _ _).symm]
    simp only [Option.bind_some, onLists, ofList_toList]
    cases hm : m v s.ns with
    | panic => rfl
    | err ns e =>
      simp only [NRes.mapVal]
      rw [declare_fields _ _ _ _ heR hnR (toList_length _ _) low2 (by decide)]
      simp only [Option.bind_some]
      have hb : ∀ n, exported n = false → n ≠ "err" → isOwn (over (over (over (fun _ => none) ["s", "b", "err"]
          (own ["s", "b", "err"])) ["t", "err"] (own ["t", "err"])) ["err"] (own ["err"])) n = some () →
        isOwn (over (over (over (over (over (fun _ => none) ["s", "b", "err"] (own ["s", "b", "err"])) ["t", "err"] (own ["t", "err"]))
          p.T.names ((toList p.T.schema v).map .field)) ["err"] (own ["err"])) p.R.names
          ((toList p.R.schema p.R.schema.zero).map .field)) n = some () := by
        intro n h1 _ h3
        unfold isOwn at h3 ⊢
        rw [hlow n h1]; exact h3
      rw [pkg_none (hnone _ (by simp [Pack.reserved]) _ _), hb "b" (by decide) (by decide) (by rfl),
        hb "t" (by decide) (by decide) (by rfl)]
      rfl
    | ok ns w =>
      simp only [NRes.mapVal]
      rw [declare_fields _ _ _ _ heR hnR (toList_length _ _) low2 (by decide)]
      simp only [Option.bind_some]
      have hb : ∀ n, exported n = false → n ≠ "err" → isOwn (over (over (over (fun _ => none) ["s", "b", "err"]
          (own ["s", "b", "err"])) ["t", "err"] (own ["t", "err"])) ["err"] (own ["err"])) n = some () →
        isOwn (over (over (over (over (over (fun _ => none) ["s", "b", "err"] (own ["s", "b", "err"])) ["t", "err"] (own ["t", "err"]))
          p.T.names ((toList p.T.schema v).map .field)) ["err"] (own ["err"])) p.R.names
          ((toList p.R.schema w).map .field)) n = some () := by
        intro n h1 _ h3
        unfold isOwn at h3 ⊢
        rw [hlow n h1]; exact h3
      rw [pkg_none (hnone _ (by simp [Pack.reserved]) _ _), hb "b" (by decide) (by decide) (by rfl),
        hb "t" (by decide) (by decide) (by rfl)]
      show ((values _ p.R.names).bind _) = _
      rw [values_over _ _ _ hnR (toList_length _ _).symm]
      simp only [Option.bind_some, henc]

theorem callText_eq (p : Pack) (h : p.Clean)
    (henc : ∀ b t v, marshalText p.tn p.tc p.T b t (toList p.T.schema v) = some (wireEnc p.tc p.T b t v)) (v : p.T.schema.Val) :
    ∃ k, callText p.tn p.rn p.T p.R (marshalText p.tn p.tc p.T)
      (fun b => (genUnmarshal p.R.schema b).map (toList p.R.schema)) (toList p.T.schema v) = some (wireEnc p.tc p.T {} 0 v, k) ∧
    ∀ spare bb, k spare bb = some (mapCall (toList p.R.schema) (callRes (genUnmarshal p.R.schema) p.R.schema.zero spare bb)) := by
  have heT : ∀ n ∈ p.T.names, exported n = true := fun n hn => h.exported n (List.mem_append_left _ hn)
  have heR : ∀ n ∈ p.R.names, exported n = true := fun n hn => h.exported n (List.mem_append_right _ hn)
  have hnT : p.T.names.Nodup := (List.nodup_append.mp h.nodup).1
  have hnR : p.R.names.Nodup := (List.nodup_append.mp h.nodup).2.1
  have hdis := (List.nodup_append.mp h.nodup).2.2
  have low0 : Lower ["b", "t", "r", "bb"] := by unfold Lower; decide
  have low1 : Lower ["err"] := by unfold Lower; decide
  have low2 : Lower ["c"] := by unfold Lower; decide
  have hres : ∀ n ∈ p.reserved, n ∉ p.T.names ∧ n ∉ p.R.names := fun n hn =>
    ⟨fun hm => h.reserved n hn (List.mem_append_left _ hm), fun hm => h.reserved n hn (List.mem_append_right _ hm)⟩
  have hexp := reserved_exported p
  have hnd : ["c"] ++ p.T.names ++ (p.R.names ++ ["err"]) |>.Nodup := by
    have h1 := nodup_lower' low1 (by decide) h.nodup h.exported
    rw [List.append_assoc, ← List.append_assoc p.T.names]
    rw [List.nodup_append]
    refine ⟨by decide, h1, fun a ha c hc e => ?_⟩
    subst e
    rcases List.mem_append.mp hc with h' | h'
    · exact low2.not_mem (h.exported a h') ha
    · rw [List.mem_singleton.mp h'] at ha; revert ha; decide
  -- the scope of the function
  generalize hF : (over (over (over (over (fun _ => none) ["err"] (own ["err"])) p.R.names
    ((toList p.R.schema p.R.schema.zero).map .field)) p.T.names ((toList p.T.schema v).map .field)) ["c"] (own ["c"]) : Env) = F
  have hD : declare (fun _ => none) (["c"] ++ p.T.names ++ (p.R.names ++ ["err"]))
      (own ["c"] ++ (toList p.T.schema v).map .field ++ (toList p.R.schema p.R.schema.zero).map .field ++ own ["err"]) = some F := by
    rw [declare_eq hnd (by simp [own, toList_length]), ← hF]
    congr 1
    rw [List.append_assoc, List.append_assoc (own ["c"]), List.append_assoc (own ["c"]), over_append _ _ _ _ _ rfl,
      List.append_assoc, over_append _ _ _ _ _ (by simp [toList_length]), over_append _ _ _ _ _ (by simp [toList_length])]
  generalize hE : over F ["b", "t", "r", "bb"] (own ["b", "t", "r", "bb"]) = E
  have hFn : ∀ n ∈ p.reserved, F n = none := by
    intro n hn
    have hx := hexp n hn
    rw [← hF, over_lower _ low2 _ hx, over_not_mem _ _ _ _ (hres n hn).1, over_not_mem _ _ _ _ (hres n hn).2, over_lower _ low1 _ hx]
  have hEn : ∀ n ∈ p.reserved, E n = none := by
    intro n hn; rw [← hE, over_lower _ low0 _ (hexp n hn)]; exact hFn n hn
  have hvT : values E p.T.names = some (toList p.T.schema v) := by
    rw [← hE, values_lower _ low0 _ heT, ← hF, values_lower _ low2 _ heT, values_over _ _ _ hnT (toList_length _ _).symm]
  have hvR : values E p.R.names = some (toList p.R.schema p.R.schema.zero) := by
    rw [← hE, values_lower _ low0 _ heR, ← hF, values_lower _ low2 _ heR,
      values_congr _ (over (over (fun _ => none) ["err"] (own ["err"])) p.R.names
        ((toList p.R.schema p.R.schema.zero).map .field)) _ (fun n hn => over_not_mem _ _ _ _ fun hm => hdis n hm n hn rfl),
      values_over _ _ _ hnR (toList_length _ _).symm]
  have hb : isOwn E "b" = some () := by rw [← hE]; rfl
  have ht : isOwn E "t" = some () := by rw [← hE]; rfl
  have tk1 : (p.R.names ++ ["err"]).take ((p.R.names ++ ["err"]).length - 1) = p.R.names := by simp
  have tk2 : (p.R.names ++ ["_", "err"]).take ((p.R.names ++ ["_", "err"]).length - 2) = p.R.names := by simp
  unfold callText
  rw [List.all_eq_true.mpr h.exported]
  simp only [idents_lhs, idents_rets, idents, args_parms, args_bt, Option.bind_eq_bind, Option.bind_some, Option.map_some,
    Bool.true_eq_false, if_false, hD, pkg_none (hFn "Tag" (by simp [Pack.reserved]))]
  rw [declare_eq (by decide) rfl, hE]
  have hd2 : (["b", "t"] ++ p.T.names).drop 2 = p.T.names := rfl
  simp only [Option.bind_some, pkg_none (hEn ("Marshal" ++ p.tn ++ "Pkt") (by simp [Pack.reserved])), hb, ht, hd2, hvT, henc,
    pkg_none (hEn "RPCCall" (by simp [Pack.reserved])), pkg_none (hEn "MType" (by simp [Pack.reserved]))]
  refine ⟨_, rfl, fun spare bb => ?_⟩
  simp only [hEn "Rerror" (by simp [Pack.reserved]), pkg_none (hEn "UnmarshalRerrorPkt" (by simp [Pack.reserved])),
    pkg_none (hEn ("Unmarshal" ++ p.rn ++ "Pkt") (by simp [Pack.reserved])), Option.bind_some, tk1, tk2, hvR]
  unfold callRes
  by_cases h5 : bb.length < 5
  · rw [if_pos h5, if_pos h5]; rfl
  rw [if_neg h5, if_neg h5]
  by_cases h6 : bb.getD 4 0 = MT.Rerror
  · rw [if_pos h6, if_pos h6]
    cases unmarshalRerror ⟨[], bb.drop 5, spare⟩ with
    | panic => rfl
    | done s t e b => cases e <;> rfl
  · rw [if_neg h6, if_neg h6]
    cases genUnmarshal p.R.schema ⟨[], bb.drop 5, spare⟩ with
    | panic => rfl
    | done w t e b =>
      simp only [Unm.map]
      rw [declare_eq hnR (by simp [toList_length])]
      simp only [Option.bind_some]
      rw [values_over _ _ _ hnR (toList_length _ _).symm]
      rfl

theorem Pack.Clean.sound {p : Pack} (hn : p.Named) (h : p.Clean) : p.Sound := by
  have heT : ∀ n ∈ p.T.names, Gen.exported n = true := fun n hn => h.exported n (List.mem_append_left _ hn)
  have heR : ∀ n ∈ p.R.names, Gen.exported n = true := fun n hn => h.exported n (List.mem_append_right _ hn)
  have hnT : p.T.names.Nodup := (List.nodup_append.mp h.nodup).1
  have hnR : p.R.names.Nodup := (List.nodup_append.mp h.nodup).2.1
  have htag := h.reserved "Tag" (by simp [Pack.reserved])
  have eT := marshalText_eq p.tn p.tc p.T heT hnT hn.t h.ownT
  have eR := marshalText_eq p.rn p.rc p.R heR hnR hn.r h.ownR
  exact ⟨eT, eR, unmarshalText_eq p.T heT hnT (fun hm => htag (List.mem_append_left _ hm)) h.convT,
    unmarshalText_eq p.R heR hnR (fun hm => htag (List.mem_append_right _ hm)) h.convR,
    fun σ m s b => srvText_eq p h eR m s b, fun v => callText_eq p h eT v⟩

/-! ### the other direction -/

theorem over_none : ∀ {env : Env} {ns : List String} {rs : List Ref} {n : String}, ns.length = rs.length →
    over env ns rs n = none → n ∉ ns ∧ env n = none
  | _, [], _, _, _, h => ⟨List.not_mem_nil, h⟩
  | env, m :: ns, r :: rs, n, hl, h => by
    rw [over_cons] at h
    by_cases hm : n = m
    · rw [if_pos hm] at h; cases h
    · rw [if_neg hm] at h
      have ih := over_none (by simpa using hl) h
      exact ⟨fun hx => (List.mem_cons.mp hx).elim hm ih.1, ih.2⟩
  | _, _ :: _, [], _, hl, _ => by simp at hl

theorem declare_some {env e : Env} {ns : List String} {rs : List Ref} (h : declare env ns rs = some e) :
    ns.Nodup ∧ ns.length = rs.length ∧ e = over env ns rs := by
  unfold declare at h
  by_cases hc : ns.Nodup ∧ ns.length = rs.length
  · rw [if_pos hc] at h
    exact ⟨hc.1, hc.2, (Option.some.inj h).symm⟩
  · rw [if_neg hc] at h; cases h

theorem pkg_some {env : Env} {n : String} (h : pkgLevel env n = some ()) : env n = none := by
  unfold pkgLevel at h
  cases he : env n with
  | none => rfl
  | some r => rw [he] at h; cases h

theorem forM_none {α : Type} (f : α → Option Unit) : ∀ l : List α, l.forM f = some () → ∀ a ∈ l, f a = some ()
  | [], _, _, ha => absurd ha List.not_mem_nil
  | b :: l, h, a, ha => by
    change (f b).bind (fun _ => l.forM f) = some () at h
    obtain ⟨_, h1, h2⟩ := Option.bind_eq_some_iff.mp h
    rcases List.mem_cons.mp ha with e | e
    · rw [e]; exact h1
    · exact forM_none f l h2 a e

theorem unmarshalText_some {d : Desc} {b : Buffer} {x : Unm (List AnyVal)} (h : unmarshalText d b = some x) :
    (∀ n ∈ d.names, exported n = true) ∧ d.names.Nodup ∧
      (∀ n ∈ d.flatMap Field.conv, n ∉ d.names ∧ n ∉ ["b", "u", "l", "t", "err"]) := by
  unfold unmarshalText at h
  cases hx : d.names.all exported with
  | false => rw [hx] at h; cases h
  | true =>
    rw [hx, idents_rets] at h
    simp only [idents, Option.map_some, Option.bind_eq_bind, Option.bind_some, Bool.true_eq_false, if_false] at h
    obtain ⟨e, h1, h⟩ := Option.bind_eq_some_iff.mp h
    obtain ⟨_, h2, h⟩ := Option.bind_eq_some_iff.mp h
    obtain ⟨_, h3, h⟩ := Option.bind_eq_some_iff.mp h
    obtain ⟨hn, hl, he⟩ := declare_some h1
    refine ⟨List.all_eq_true.mp hx, (List.nodup_append.mp (List.nodup_append.mp hn).2.1).1, fun n hm => ?_⟩
    have := pkg_some (forM_none _ _ h3 n hm)
    rw [he] at this
    have := (over_none hl this).1
    simp only [List.mem_append, not_or] at this
    refine ⟨this.2.1, ?_⟩
    intro hx
    exact (List.mem_append.mp (show n ∈ ["b", "u", "l"] ++ ["t", "err"] from hx)).elim this.1 this.2.2

theorem over_mem : ∀ {env : Env} {ns : List String} {rs : List Ref} {n : String}, ns.length = rs.length → n ∈ ns →
    ∃ r ∈ rs, over env ns rs n = some r
  | _, [], _, _, _, h => absurd h List.not_mem_nil
  | env, m :: ns, r :: rs, n, hl, h => by
    rw [over_cons]
    by_cases hm : n = m
    · rw [if_pos hm]; exact ⟨r, List.mem_cons_self .., rfl⟩
    · rw [if_neg hm]
      obtain ⟨r', h1, h2⟩ := over_mem (env := env) (by simpa using hl) ((List.mem_cons.mp h).resolve_left hm)
      exact ⟨r', List.mem_cons_of_mem _ h1, h2⟩
  | _, _ :: _, [], _, hl, _ => by simp at hl

theorem zero_byte : (fs : Fields) → ∀ x ∈ toList fs fs.zero, ∀ y, toByte x = some y → y = 0
  | .nil, _, h, _, _ => absurd h List.not_mem_nil
  | .cons t fs, x, h, y, hy => by
    rcases List.mem_cons.mp h with e | h
    · subst e
      cases t <;> simp only [toByte, Fields.zero, Ty.zero] at hy <;> first | cases hy | skip
      all_goals rfl
    · exact zero_byte fs x h y hy

theorem wireEnc_inj {c c' : MType} {d : Desc} {b : Buffer} {t : Tag} {v : d.schema.Val}
    (h : wireEnc c d b t v = wireEnc c' d b t v) : c = c' := by
  have := congrArg Buffer.unread h
  simp only [wireEnc, encoded, packet, List.append_assoc] at this
  have := List.append_cancel_left this
  simpa [le] using this

theorem marshalText_own {name : String} {c : MType} {d : Desc} (hc : c ≠ 0) (hx : exported name = true)
    (he : ∀ n ∈ d.names, exported n = true) (hn : d.names.Nodup)
    (h : marshalText name c d {} 0 (toList d.schema d.schema.zero) = some (wireEnc c d {} 0 d.schema.zero)) : name ∉ d.names := by
  intro hm
  have hl := toList_length d d.schema.zero
  have low : Lower ["b", "t"] := by unfold Lower; decide
  unfold marshalText at h
  rw [args_bt] at h
  simp only [Option.bind_eq_bind, Option.bind_some] at h
  rw [declare_eq (nodup_lower low (by decide) hn he) (by simp [own, hl]), over_append _ _ _ _ _ rfl] at h
  generalize hE : over (over (fun _ => none) d.names ((toList d.schema d.schema.zero).map .field)) ["b", "t"] (own ["b", "t"]) = E at h
  obtain ⟨r, h1, h2⟩ := over_mem (env := fun _ => none) (rs := (toList d.schema d.schema.zero).map .field) (by simp [hl]) hm
  obtain ⟨z, hz, rfl⟩ := List.mem_map.mp h1
  have h3 : E name = some (.field z) := by rw [← hE, over_lower _ low _ hx, h2]
  have h4 : E "l" = none := by
    rw [← hE, over_not_mem _ _ _ _ (by decide), over_exported _ he _ (by decide)]
  have h5 : values E d.names = some (toList d.schema d.schema.zero) := by
    rw [← hE, values_lower _ low _ he, values_over _ _ _ hn hl.symm]
  have hb : isOwn E "b" = some () := by rw [← hE]; rfl
  have ht : isOwn E "t" = some () := by rw [← hE]; rfl
  simp only [all_exported he, Option.bind_some, pkg_none h4, h3, h5, hb, ht, ofList_toList, genMarshal_eq, Bool.true_eq_false,
    if_false] at h
  obtain ⟨ty, hty, h⟩ := Option.bind_eq_some_iff.mp h
  exact hc ((wireEnc_inj (Option.some.inj h)).symm.trans (zero_byte _ z hz ty hty))

theorem genUnmarshal_empty (fs : Fields) : ∃ e b, genUnmarshal fs {} = .done fs.zero 0 e b := ⟨_, _, rfl⟩

theorem Pack.Sound.clean {p : Pack} (hn : p.Named) (h : p.Sound) : p.Clean := by
  obtain ⟨heT, hnT, hcT⟩ := unmarshalText_some (h.decT {})
  obtain ⟨heR, hnR, hcR⟩ := unmarshalText_some (h.decR {})
  have hex : ∀ n ∈ p.T.names ++ p.R.names, Gen.exported n = true := fun n hm => (List.mem_append.mp hm).elim (heT n) (heR n)
  have hlT := toList_length p.T p.T.schema.zero
  have hlR := toList_length p.R p.R.schema.zero
  have low1 : Lower ["t", "err"] := by unfold Lower; decide
  have low2 : Lower ["err"] := by unfold Lower; decide
  -- the client stub
  obtain ⟨k, hk, hrep⟩ := h.client p.T.schema.zero
  unfold Pack.call callText at hk
  rw [List.all_eq_true.mpr hex] at hk
  simp only [idents_lhs, idents_rets, idents, args_parms, args_bt, Option.bind_eq_bind, Option.bind_some, Option.map_some,
    Bool.true_eq_false, if_false] at hk
  obtain ⟨F, hF, hk⟩ := Option.bind_eq_some_iff.mp hk
  obtain ⟨_, hTag, hk⟩ := Option.bind_eq_some_iff.mp hk
  obtain ⟨E, hE, hk⟩ := Option.bind_eq_some_iff.mp hk
  obtain ⟨_, hM, hk⟩ := Option.bind_eq_some_iff.mp hk
  obtain ⟨_, _, hk⟩ := Option.bind_eq_some_iff.mp hk
  obtain ⟨_, _, hk⟩ := Option.bind_eq_some_iff.mp hk
  obtain ⟨_, _, hk⟩ := Option.bind_eq_some_iff.mp hk
  obtain ⟨_, _, hk⟩ := Option.bind_eq_some_iff.mp hk
  obtain ⟨_, hRPC, hk⟩ := Option.bind_eq_some_iff.mp hk
  obtain ⟨_, hMT, hk⟩ := Option.bind_eq_some_iff.mp hk
  obtain ⟨hnd, hFl, hFe⟩ := declare_some hF
  obtain ⟨_, hEl, hEe⟩ := declare_some hE
  have hFnot : ∀ n, F n = none → n ∉ p.T.names ++ p.R.names := by
    intro n hn hm
    rw [hFe] at hn
    refine (over_none hFl hn).1 ?_
    rcases List.mem_append.mp hm with h | h <;> simp [h]
  have hEnot : ∀ n, E n = none → n ∉ p.T.names ++ p.R.names := by
    intro n hn
    rw [hEe] at hn
    exact hFnot n (over_none hEl hn).2
  have hnod : (p.T.names ++ p.R.names).Nodup := by
    rw [List.append_assoc, ← List.append_assoc p.T.names] at hnd
    exact (List.nodup_append.mp (List.nodup_append.mp hnd).2.1).1
  have hk := (Prod.mk.inj (Option.some.inj hk)).2
  have hk := (congrFun (congrFun hk []) [9, 0, 0, 0, 107, 0, 0, 0, 0]).trans (hrep [] _)
  rw [show callRes (genUnmarshal p.R.schema) p.R.schema.zero [] [9, 0, 0, 0, 107, 0, 0, 0, 0] =
    .ret p.R.schema.zero (some (.remote [])) from rfl] at hk
  rw [if_neg (by decide)] at hk
  have hrest : E "Rerror" = none ∧ E "UnmarshalRerrorPkt" = none ∧ E ("Unmarshal" ++ p.rn ++ "Pkt") = none := by
    cases hr : E "Rerror" with
    | none =>
      rw [hr] at hk
      obtain ⟨_, h1, hk⟩ := Option.bind_eq_some_iff.mp hk
      obtain ⟨_, h2, hk⟩ := Option.bind_eq_some_iff.mp hk
      exact ⟨rfl, pkg_some h1, pkg_some h2⟩
    | some r =>
      exfalso
      rw [hr] at hk
      cases r with
      | local_ n => cases hk
      | field z =>
        obtain ⟨y, h1, hk⟩ := Option.bind_eq_some_iff.mp hk
        obtain ⟨_, _, hk⟩ := Option.bind_eq_some_iff.mp hk
        obtain ⟨_, _, hk⟩ := Option.bind_eq_some_iff.mp hk
        have hy : y = 0 := by
          have hz : z ∈ toList p.T.schema p.T.schema.zero ++ toList p.R.schema p.R.schema.zero := by
            rw [hEe, over_lower _ (by unfold Lower; decide) _ (by decide), hFe] at hr
            have hm : "Rerror" ∈ ["c"] ++ p.T.names ++ (p.R.names ++ ["err"]) := Classical.byContradiction fun hm => by
              rw [over_not_mem _ _ _ _ hm] at hr; cases hr
            obtain ⟨r, h2, h3⟩ := over_mem (env := fun _ => none) hFl hm
            rw [hr] at h3
            cases h3
            simpa [own] using h2
          have : toByte z = some y := by
            unfold cmpMType at h1
            split at h1
            · split at h1
              · exact h1
              · cases h1
            · cases h1
          exact (List.mem_append.mp hz).elim (fun hz => zero_byte _ z hz y this) (fun hz => zero_byte _ z hz y this)
        rw [hy, if_neg (by decide)] at hk
        cases hg : genUnmarshal p.R.schema ⟨[], List.drop 5 [9, 0, 0, 0, 107, 0, 0, 0, 0], []⟩ with
        | panic => rw [hg] at hk; cases hk
        | done w t e b =>
          rw [hg] at hk
          simp only [Unm.map] at hk
          obtain ⟨_, _, hk⟩ := Option.bind_eq_some_iff.mp hk
          obtain ⟨_, _, hk⟩ := Option.bind_eq_some_iff.mp hk
          cases e <;> simp [mapCall] at hk
  -- the server stub
  obtain ⟨hs1, hs2⟩ : "MarshalRerrorPkt" ∉ p.T.names ++ p.R.names ∧ "Marshal" ++ p.rn ++ "Pkt" ∉ p.T.names ++ p.R.names := by
    have hs1 := h.server Unit (fun _ _ => .err () []) ⟨(), false⟩ {}
    have hs2 := h.server Unit (fun _ _ => .ok () p.R.schema.zero) ⟨(), false⟩ {}
    obtain ⟨e, b, hg⟩ := genUnmarshal_empty p.T.schema
    unfold Pack.server srvText at hs1 hs2
    rw [List.all_eq_true.mpr hex, declare_eq (by decide) rfl] at hs1 hs2
    simp only [idents_lhs, idents, Option.bind_eq_bind, Option.bind_some, Option.map_some, Bool.true_eq_false, if_false, hg,
      Unm.map, onLists, ofList_toList, NRes.mapVal, declare_fields _ _ _ _ heT hnT hlT low1 (by decide), args_parms, args_bt,
      values_over _ _ _ hnT hlT.symm, declare_fields _ _ _ _ heR hnR hlR low2 (by decide)] at hs1 hs2
    obtain ⟨_, _, hs1⟩ := Option.bind_eq_some_iff.mp hs1
    obtain ⟨_, _, hs1⟩ := Option.bind_eq_some_iff.mp hs1
    obtain ⟨_, hs1, _⟩ := Option.bind_eq_some_iff.mp hs1
    obtain ⟨_, _, hs2⟩ := Option.bind_eq_some_iff.mp hs2
    obtain ⟨_, _, hs2⟩ := Option.bind_eq_some_iff.mp hs2
    obtain ⟨_, hs2, _⟩ := Option.bind_eq_some_iff.mp hs2
    have hnot : ∀ (n : String) (env : Env), over (over (over env p.T.names ((toList p.T.schema p.T.schema.zero).map .field)) ["err"]
        (own ["err"])) p.R.names ((toList p.R.schema p.R.schema.zero).map .field) n = none → n ∉ p.T.names ++ p.R.names := by
      intro n env hn hm
      have h1 := over_none (by simp [hlR]) hn
      have h2 := over_none rfl h1.2
      have h3 := over_none (by simp [hlT]) h2.2
      exact (List.mem_append.mp hm).elim h3.1 h1.1
    exact ⟨hnot _ _ (pkg_some hs1), hnot _ _ (pkg_some hs2)⟩
  refine ⟨hex, hnod, ?_, marshalText_own hn.tc hn.t heT hnT (h.encT _ _ _), marshalText_own hn.rc hn.r heR hnR (h.encR _ _ _),
    hcT, hcR⟩
  intro n hn
  simp only [Pack.reserved, List.mem_cons, List.not_mem_nil, or_false] at hn
  rcases hn with h | h | h | h | h | h | h | h | h <;> subst h
  · exact hFnot _ (pkg_some hTag)
  · exact hEnot _ (pkg_some hMT)
  · exact hEnot _ hrest.1
  · exact hEnot _ (pkg_some hRPC)
  · exact hs1
  · exact hEnot _ hrest.2.1
  · exact hEnot _ (pkg_some hM)
  · exact hs2
  · exact hEnot _ hrest.2.2

/-- **C91** The six functions that the generator writes for a packet are accepted by the compiler and do their work if and
only if its names are clean.  (The rule in protocol.go:157-163 is another one: see `C91_counterexample`.) -/
theorem C91_exact_partial (p : Pack) (h : p.Named) : p.Sound ↔ p.Clean := ⟨fun hs => hs.clean h, fun hc => hc.sound h⟩

instance (p : Pack) : Decidable p.Clean :=
  decidable_of_iff ((∀ n ∈ p.T.names ++ p.R.names, exported n = true) ∧ (p.T.names ++ p.R.names).Nodup ∧
      (∀ n ∈ p.reserved, n ∉ p.T.names ++ p.R.names) ∧ p.tn ∉ p.T.names ∧ p.rn ∉ p.R.names ∧
      (∀ n ∈ p.T.flatMap Field.conv, n ∉ p.T.names ∧ n ∉ ["b", "u", "l", "t", "err"]) ∧
      (∀ n ∈ p.R.flatMap Field.conv, n ∉ p.R.names ∧ n ∉ ["b", "u", "l", "t", "err"]))
    ⟨fun ⟨a, b, c, d, e, f, g⟩ => ⟨a, b, c, d, e, f, g⟩, fun h => ⟨h.1, h.2, h.3, h.4, h.5, h.6, h.7⟩⟩

instance (p : Pack) : Decidable p.Named :=
  decidable_of_iff (exported p.tn = true ∧ exported p.rn = true ∧ p.tc ≠ 0 ∧ p.rc ≠ 0)
    ⟨fun ⟨a, b, c, d⟩ => ⟨a, b, c, d⟩, fun h => ⟨h.1, h.2, h.3, h.4⟩⟩

example : walkPack.Named ∧ walkPack.Clean := by decide +kernel

theorem packs_clean : ∀ p ∈ packs, p.Named ∧ p.Clean := by decide +kernel

/-- **C91** The names of the packets of protocol.go are clean. -/
theorem C91_packets (p : Pack) (h : p ∈ packs) : p.Sound := (packs_clean p h).2.sound (packs_clean p h).1

/-! #### the rule -/

/-- protocol.go:157-163: the names in both halves of a packet are different, and no member has the name of its type (they also
have to be exported, for `reflect`) -/
structure Pack.Rule (p : Pack) : Prop where
  exported : ∀ n ∈ p.T.names ++ p.R.names, exported n = true
  nodup : (p.T.names ++ p.R.names).Nodup
  types : ∀ f ∈ p.T ++ p.R, f.name ≠ f.tyName

instance (p : Pack) : Decidable p.Rule :=
  decidable_of_iff ((∀ n ∈ p.T.names ++ p.R.names, exported n = true) ∧ (p.T.names ++ p.R.names).Nodup ∧
      ∀ f ∈ p.T ++ p.R, f.name ≠ f.tyName)
    ⟨fun ⟨a, b, c⟩ => ⟨a, b, c⟩, fun h => ⟨h.1, h.2, h.3⟩⟩

/-- a request with a field that is named like the request -/
def shadowT : Pack := ⟨"Tversion", "Rversion", MT.Tversion, MT.Rversion, [⟨"Tversion", "Mode", .uint8, []⟩], []⟩
/-- a reply with a field `Rerror MType` -/
def shadowE : Pack := ⟨"Tstatus", "Rstatus", 128, 129, [], [⟨"Rerror", "MType", .uint8, []⟩]⟩
/-- a field `MarshalRerrorPkt`, and a field `FID` beside another one of type `FID` -/
def shadowF : Pack := ⟨"Tversion", "Rversion", MT.Tversion, MT.Rversion, [⟨"MarshalRerrorPkt", "string", .string, []⟩], []⟩
def shadowG : Pack := ⟨"Tversion", "Rversion", MT.Tversion, MT.Rversion, [⟨"FID", "Mode", .uint8, []⟩, ⟨"OFID", "FID", .uint32, []⟩], []⟩

/-- **C91** is false for the rule as it is written: these packets follow it, and their code is not accepted or wrong.  In the first
one the field replaces the type of the packet on the wire; in the second one error replies are taken for results.  And a
packet of the protocol itself breaks the rule although its code is right. -/
theorem C91_counterexample :
    (∀ p ∈ [shadowT, shadowE, shadowF, shadowG], p.Named ∧ p.Rule ∧ ¬ p.Sound) ∧
    (∀ (b : Buffer) (t : Tag) (x : UInt8), marshalText "Tversion" MT.Tversion shadowT.T b t [⟨.uint8, x⟩] =
      some (encoded b (packet x.toNat (le 2 t.toNat ++ le 1 x.toNat)))) ∧
    shadowE.reply () [] [8, 0, 0, 0, 107, 0, 0, 0] = some (.ret [⟨.uint8, (0 : UInt8)⟩] none) ∧
    attachPack.Sound ∧ ¬ attachPack.Rule := by
  refine ⟨fun p hp => ?_, fun b t x => ?_, rfl, C91_packets _ (by simp [packs]), by decide +kernel⟩
  · have : ∀ p ∈ [shadowT, shadowE, shadowF, shadowG], p.Named ∧ p.Rule ∧ ¬ p.Clean := by decide +kernel
    exact ⟨(this p hp).1, (this p hp).2.1, fun hs => (this p hp).2.2 (hs.clean (this p hp).1)⟩
  · exact (genMarshal_eq x shadowT.T.schema b t (x, ()))

/-! #### the stubs of genout.go -/

theorem unmarshal_inj {S M V : Type} (k : S → M) (hk : ∀ a b, k a = k b → a = b) {of : V → S} {ofM : V → M}
    (hM : ∀ v, ofM v = k (of v)) {dec : Buffer → Unm S} {gen : Buffer → Unm V}
    (h : ∀ b, (dec b).map k = (gen b).map ofM) (b : Buffer) : dec b = (gen b).map of := by
  have := h b
  cases hd : dec b <;> cases hg : gen b <;> rw [hd, hg] at this <;> simp only [Unm.map] at this ⊢
  · cases this
  · cases this
  · injection this with h1 h2 h3 h4
    rw [hk _ _ (h1.trans (hM _)), h2, h3, h4]

theorem unmarshal_inv {S V : Type} {dec : Buffer → Unm S} {gen : Buffer → Unm V} {of : V → S} {to : S → V}
    (h : ∀ b, dec b = (gen b).map of) (hto : ∀ v, to (of v) = v) (b : Buffer) : gen b = (dec b).map to := by
  rw [h]
  cases gen b with
  | panic => rfl
  | done v t e b => simp only [Unm.map, hto]

theorem srvCall_map {σ S Q V W : Type} {dec : Buffer → Unm S} {gen : Buffer → Unm V} {of : V → S}
    (h : ∀ b, dec b = (gen b).map of) (call : S → σ → NRes σ Q) (g : Q → W) {enc : Buffer → Tag → Q → Buffer}
    {wenc : Buffer → Tag → W → Buffer} (he : ∀ b t q, wenc b t (g q) = enc b t q) (s : Server σ) (b : Buffer) :
    srvCall dec call enc s b = srvCall gen (fun v st => NRes.mapVal g (call (of v) st)) wenc s b := by
  unfold srvCall
  rw [h]
  cases gen b with
  | panic => rfl
  | done v t e b =>
    simp only [Unm.map]
    cases call (of v) s.ns <;> simp only [NRes.mapVal, he]

theorem reply_eq {p : Pack} (hs : p.Sound) (v : p.T.schema.Val) {S : Type} {dec : Buffer → Unm S} {to : S → p.R.schema.Val}
    (h : ∀ b, genUnmarshal p.R.schema b = (dec b).map to) {zero : S} (hz : p.R.schema.zero = to zero) (spare bb : Bytes) :
    p.reply v spare bb = some (mapCall (fun r => toList p.R.schema (to r)) (callRes dec zero spare bb)) := by
  obtain ⟨k, h1, h2⟩ := hs.client v
  unfold Pack.reply
  rw [h1]
  show k spare bb = _
  rw [h2]
  congr 1
  unfold callRes
  split
  · rfl
  split
  · split <;> simp [mapCall, hz]
  · rw [h]
    cases dec ⟨[], bb.drop 5, spare⟩ <;> rfl

/-- **C91** `SrvRversion` and `CallTversion` of genout.go are what the generator makes of `versionPack`. -/
theorem C91_version {σ : Type} (ns : NineServer σ) (s : Server σ) (b : Buffer) (spare bb : Bytes) :
    versionPack.server (fun (v : UInt32 × GoString × Unit) st => NRes.mapVal (fun q => (q.1, q.2, ())) (ns.Rversion v.1 v.2.1 st)) s b =
      some (srvRversion ns s b) ∧
    ∀ v, versionPack.reply v spare bb = some (mapCall (fun r => toList versionPack.R.schema (r.RMsize, r.RVersion, ())) (callTversion spare bb)) := by
  have hs := C91_packets versionPack (by simp [packs])
  have hd : ∀ b, unmarshalTversion b = (genUnmarshal versionPack.T.schema b).map fun (v : UInt32 × GoString × Unit) => ⟨v.1, v.2.1⟩ :=
    unmarshal_inj TMsg.version (fun _ _ h => TMsg.version.inj h) (fun _ => rfl) (congrFun (Option.some.inj (C66_request_decoders (.version {}))))
  have hr : ∀ b, unmarshalRversion b = (genUnmarshal versionPack.R.schema b).map fun (v : UInt32 × GoString × Unit) => ⟨v.1, v.2.1⟩ :=
    unmarshal_inj RMsg.version (fun _ _ h => RMsg.version.inj h) (fun _ => rfl) (congrFun (Option.some.inj (C66_reply_decoders (.version {}))))
  have he : ∀ b t (r : RversionPkt), wireEnc MT.Rversion versionPack.R b t (r.RMsize, r.RVersion, ()) = marshalRversion b t r := fun b t r =>
    Option.some.inj ((genMarshal_eq MT.Rversion (schemaR (.version r)) b t (valR (.version r))).symm.trans (C66_reply_encoders (.version r) b t))
  refine ⟨(hs.server σ _ s b).trans (congrArg some (Eq.symm ?_)), fun v => ?_⟩
  · exact srvCall_map hd _ (fun (q : UInt32 × GoString) => (q.1, q.2, ())) (fun b t q => he b t ⟨q.1, q.2⟩) s b
  · exact reply_eq hs v (unmarshal_inv hr (fun v => rfl)) rfl spare bb

/-- **C91** `SrvRattach` and `CallTattach` of genout.go are what the generator makes of `attachPack`. -/
theorem C91_attach {σ : Type} (ns : NineServer σ) (s : Server σ) (b : Buffer) (spare bb : Bytes) :
    attachPack.server (fun (v : UInt32 × UInt32 × GoString × GoString × Unit) st => NRes.mapVal (fun q => (qidVal q, ())) (ns.Rattach v.1 v.2.1 v.2.2.1 v.2.2.2.1 st)) s b =
      some (srvRattach ns s b) ∧
    ∀ v, attachPack.reply v spare bb = some (mapCall (fun r => toList attachPack.R.schema (qidVal r.QID, ())) (callTattach spare bb)) := by
  have hs := C91_packets attachPack (by simp [packs])
  have hd : ∀ b, unmarshalTattach b = (genUnmarshal attachPack.T.schema b).map fun (v : UInt32 × UInt32 × GoString × GoString × Unit) => ⟨v.1, v.2.1, v.2.2.1, v.2.2.2.1⟩ :=
    unmarshal_inj TMsg.attach (fun _ _ h => TMsg.attach.inj h) (fun _ => rfl) (congrFun (Option.some.inj (C66_request_decoders (.attach {}))))
  have hr : ∀ b, unmarshalRattach b = (genUnmarshal attachPack.R.schema b).map fun (v : QidVal × Unit) => ⟨ofQidVal (v.1)⟩ :=
    unmarshal_inj RMsg.attach (fun _ _ h => RMsg.attach.inj h) (fun _ => rfl) (congrFun (Option.some.inj (C66_reply_decoders (.attach {}))))
  have he : ∀ b t (r : RattachPkt), wireEnc MT.Rattach attachPack.R b t (qidVal r.QID, ()) = marshalRattach b t r := fun b t r =>
    Option.some.inj ((genMarshal_eq MT.Rattach (schemaR (.attach r)) b t (valR (.attach r))).symm.trans (C66_reply_encoders (.attach r) b t))
  refine ⟨(hs.server σ _ s b).trans (congrArg some (Eq.symm ?_)), fun v => ?_⟩
  · exact srvCall_map hd _ (fun (q : QID) => (qidVal q, ())) (fun b t q => he b t ⟨q⟩) s b
  · exact reply_eq hs v (unmarshal_inv hr (fun v => rfl)) rfl spare bb

/-- **C91** `SrvRflush` and `CallTflush` of genout.go are what the generator makes of `flushPack`. -/
theorem C91_flush {σ : Type} (ns : NineServer σ) (s : Server σ) (b : Buffer) (spare bb : Bytes) :
    flushPack.server (fun (v : UInt16 × Unit) st => NRes.mapVal (fun _ => ()) (ns.Rflush v.1 st)) s b =
      some (srvRflush ns s b) ∧
    ∀ v, flushPack.reply v spare bb = some (mapCall (fun r => toList flushPack.R.schema (())) (callTflush spare bb)) := by
  have hs := C91_packets flushPack (by simp [packs])
  have hd : ∀ b, unmarshalTflush b = (genUnmarshal flushPack.T.schema b).map fun (v : UInt16 × Unit) => ⟨v.1⟩ :=
    unmarshal_inj TMsg.flush (fun _ _ h => TMsg.flush.inj h) (fun _ => rfl) (congrFun (Option.some.inj (C66_request_decoders (.flush {}))))
  have hr : ∀ b, unmarshalRflush b = (genUnmarshal flushPack.R.schema b).map fun (v : Unit) => ⟨⟩ :=
    unmarshal_inj RMsg.flush (fun _ _ h => RMsg.flush.inj h) (fun _ => rfl) (congrFun (Option.some.inj (C66_reply_decoders (.flush {}))))
  have he : ∀ b t (_ : RflushPkt), wireEnc MT.Rflush flushPack.R b t (()) = marshalRflush b t {} := fun b t _ =>
    Option.some.inj ((genMarshal_eq MT.Rflush (schemaR (.flush {})) b t (valR (.flush {}))).symm.trans (C66_reply_encoders (.flush {}) b t))
  refine ⟨(hs.server σ _ s b).trans (congrArg some (Eq.symm ?_)), fun v => ?_⟩
  · exact srvCall_map hd _ (fun (_ : Unit) => ()) (fun b t _ => he b t {}) s b
  · exact reply_eq hs v (unmarshal_inv hr (fun v => rfl)) rfl spare bb

/-- **C91** `SrvRwalk` and `CallTwalk` of genout.go are what the generator makes of `walkPack`. -/
theorem C91_walk {σ : Type} (ns : NineServer σ) (s : Server σ) (b : Buffer) (spare bb : Bytes) :
    walkPack.server (fun (v : UInt32 × UInt32 × List GoString × Unit) st => NRes.mapVal (fun q => (q.map qidVal, ())) (ns.Rwalk v.1 v.2.1 v.2.2.1 st)) s b =
      some (srvRwalk ns s b) ∧
    ∀ v, walkPack.reply v spare bb = some (mapCall (fun r => toList walkPack.R.schema (r.QIDs.map qidVal, ())) (callTwalk spare bb)) := by
  have hs := C91_packets walkPack (by simp [packs])
  have hd : ∀ b, unmarshalTwalk b = (genUnmarshal walkPack.T.schema b).map fun (v : UInt32 × UInt32 × List GoString × Unit) => ⟨v.1, v.2.1, v.2.2.1⟩ :=
    unmarshal_inj TMsg.walk (fun _ _ h => TMsg.walk.inj h) (fun _ => rfl) (congrFun (Option.some.inj (C66_request_decoders (.walk {}))))
  have hr : ∀ b, unmarshalRwalk b = (genUnmarshal walkPack.R.schema b).map fun (v : List QidVal × Unit) => ⟨(v.1).map ofQidVal⟩ :=
    unmarshal_inj RMsg.walk (fun _ _ h => RMsg.walk.inj h) (fun _ => rfl) (congrFun (Option.some.inj (C66_reply_decoders (.walk {}))))
  have he : ∀ b t (r : RwalkPkt), wireEnc MT.Rwalk walkPack.R b t (r.QIDs.map qidVal, ()) = marshalRwalk b t r := fun b t r =>
    Option.some.inj ((genMarshal_eq MT.Rwalk (schemaR (.walk r)) b t (valR (.walk r))).symm.trans (C66_reply_encoders (.walk r) b t))
  refine ⟨(hs.server σ _ s b).trans (congrArg some (Eq.symm ?_)), fun v => ?_⟩
  · exact srvCall_map hd _ (fun (q : List QID) => (q.map qidVal, ())) (fun b t q => he b t ⟨q⟩) s b
  · exact reply_eq hs v (unmarshal_inv hr (fun v => map_ofQidVal v)) rfl spare bb

/-- **C91** `SrvRopen` and `CallTopen` of genout.go are what the generator makes of `openPack`. -/
theorem C91_open {σ : Type} (ns : NineServer σ) (s : Server σ) (b : Buffer) (spare bb : Bytes) :
    openPack.server (fun (v : UInt32 × UInt8 × Unit) st => NRes.mapVal (fun q => (qidVal q.1, q.2, ())) (ns.Ropen v.1 v.2.1 st)) s b =
      some (srvRopen ns s b) ∧
    ∀ v, openPack.reply v spare bb = some (mapCall (fun r => toList openPack.R.schema (qidVal r.OQID, r.IOUnit, ())) (callTopen spare bb)) := by
  have hs := C91_packets openPack (by simp [packs])
  have hd : ∀ b, unmarshalTopen b = (genUnmarshal openPack.T.schema b).map fun (v : UInt32 × UInt8 × Unit) => ⟨v.1, v.2.1⟩ :=
    unmarshal_inj TMsg.open_ (fun _ _ h => TMsg.open_.inj h) (fun _ => rfl) (congrFun (Option.some.inj (C66_request_decoders (.open_ {}))))
  have hr : ∀ b, unmarshalRopen b = (genUnmarshal openPack.R.schema b).map fun (v : QidVal × UInt32 × Unit) => ⟨ofQidVal (v.1), v.2.1⟩ :=
    unmarshal_inj RMsg.open_ (fun _ _ h => RMsg.open_.inj h) (fun _ => rfl) (congrFun (Option.some.inj (C66_reply_decoders (.open_ {}))))
  have he : ∀ b t (r : RopenPkt), wireEnc MT.Ropen openPack.R b t (qidVal r.OQID, r.IOUnit, ()) = marshalRopen b t r := fun b t r =>
    Option.some.inj ((genMarshal_eq MT.Ropen (schemaR (.open_ r)) b t (valR (.open_ r))).symm.trans (C66_reply_encoders (.open_ r) b t))
  refine ⟨(hs.server σ _ s b).trans (congrArg some (Eq.symm ?_)), fun v => ?_⟩
  · exact srvCall_map hd _ (fun (q : QID × UInt32) => (qidVal q.1, q.2, ())) (fun b t q => he b t ⟨q.1, q.2⟩) s b
  · exact reply_eq hs v (unmarshal_inv hr (fun v => rfl)) rfl spare bb

/-- **C91** `SrvRcreate` and `CallTcreate` of genout.go are what the generator makes of `createPack`. -/
theorem C91_create {σ : Type} (ns : NineServer σ) (s : Server σ) (b : Buffer) (spare bb : Bytes) :
    createPack.server (fun (v : UInt32 × GoString × UInt32 × UInt8 × Unit) st => NRes.mapVal (fun q => (qidVal q.1, q.2, ())) (ns.Rcreate v.1 v.2.1 v.2.2.1 v.2.2.2.1 st)) s b =
      some (srvRcreate ns s b) ∧
    ∀ v, createPack.reply v spare bb = some (mapCall (fun r => toList createPack.R.schema (qidVal r.OQID, r.IOUnit, ())) (callTcreate spare bb)) := by
  have hs := C91_packets createPack (by simp [packs])
  have hd : ∀ b, unmarshalTcreate b = (genUnmarshal createPack.T.schema b).map fun (v : UInt32 × GoString × UInt32 × UInt8 × Unit) => ⟨v.1, v.2.1, v.2.2.1, v.2.2.2.1⟩ :=
    unmarshal_inj TMsg.create (fun _ _ h => TMsg.create.inj h) (fun _ => rfl) (congrFun (Option.some.inj (C66_request_decoders (.create {}))))
  have hr : ∀ b, unmarshalRcreate b = (genUnmarshal createPack.R.schema b).map fun (v : QidVal × UInt32 × Unit) => ⟨ofQidVal (v.1), v.2.1⟩ :=
    unmarshal_inj RMsg.create (fun _ _ h => RMsg.create.inj h) (fun _ => rfl) (congrFun (Option.some.inj (C66_reply_decoders (.create {}))))
  have he : ∀ b t (r : RcreatePkt), wireEnc MT.Rcreate createPack.R b t (qidVal r.OQID, r.IOUnit, ()) = marshalRcreate b t r := fun b t r =>
    Option.some.inj ((genMarshal_eq MT.Rcreate (schemaR (.create r)) b t (valR (.create r))).symm.trans (C66_reply_encoders (.create r) b t))
  refine ⟨(hs.server σ _ s b).trans (congrArg some (Eq.symm ?_)), fun v => ?_⟩
  · exact srvCall_map hd _ (fun (q : QID × UInt32) => (qidVal q.1, q.2, ())) (fun b t q => he b t ⟨q.1, q.2⟩) s b
  · exact reply_eq hs v (unmarshal_inv hr (fun v => rfl)) rfl spare bb

/-- **C91** `SrvRstat` and `CallTstat` of genout.go are what the generator makes of `statPack`. -/
theorem C91_stat {σ : Type} (ns : NineServer σ) (s : Server σ) (b : Buffer) (spare bb : Bytes) :
    statPack.server (fun (v : UInt32 × Unit) st => NRes.mapVal (fun q => (q, ())) (ns.Rstat v.1 st)) s b =
      some (srvRstat ns s b) ∧
    ∀ v, statPack.reply v spare bb = some (mapCall (fun r => toList statPack.R.schema (r.B, ())) (callTstat spare bb)) := by
  have hs := C91_packets statPack (by simp [packs])
  have hd : ∀ b, unmarshalTstat b = (genUnmarshal statPack.T.schema b).map fun (v : UInt32 × Unit) => ⟨v.1⟩ :=
    unmarshal_inj TMsg.stat (fun _ _ h => TMsg.stat.inj h) (fun _ => rfl) (congrFun (Option.some.inj (C66_request_decoders (.stat {}))))
  have hr : ∀ b, unmarshalRstat b = (genUnmarshal statPack.R.schema b).map fun (v : Bytes × Unit) => ⟨v.1⟩ :=
    unmarshal_inj RMsg.stat (fun _ _ h => RMsg.stat.inj h) (fun _ => rfl) (congrFun (Option.some.inj (C66_reply_decoders (.stat {}))))
  have he : ∀ b t (r : RstatPkt), wireEnc MT.Rstat statPack.R b t (r.B, ()) = marshalRstat b t r := fun b t r =>
    Option.some.inj ((genMarshal_eq MT.Rstat (schemaR (.stat r)) b t (valR (.stat r))).symm.trans (C66_reply_encoders (.stat r) b t))
  refine ⟨(hs.server σ _ s b).trans (congrArg some (Eq.symm ?_)), fun v => ?_⟩
  · exact srvCall_map hd _ (fun (q : Bytes) => (q, ())) (fun b t q => he b t ⟨q⟩) s b
  · exact reply_eq hs v (unmarshal_inv hr (fun v => rfl)) rfl spare bb

/-- **C91** `SrvRwstat` and `CallTwstat` of genout.go are what the generator makes of `wstatPack`. -/
theorem C91_wstat {σ : Type} (ns : NineServer σ) (s : Server σ) (b : Buffer) (spare bb : Bytes) :
    wstatPack.server (fun (v : UInt32 × Bytes × Unit) st => NRes.mapVal (fun _ => ()) (ns.Rwstat v.1 v.2.1 st)) s b =
      some (srvRwstat ns s b) ∧
    ∀ v, wstatPack.reply v spare bb = some (mapCall (fun r => toList wstatPack.R.schema (())) (callTwstat spare bb)) := by
  have hs := C91_packets wstatPack (by simp [packs])
  have hd : ∀ b, unmarshalTwstat b = (genUnmarshal wstatPack.T.schema b).map fun (v : UInt32 × Bytes × Unit) => ⟨v.1, v.2.1⟩ :=
    unmarshal_inj TMsg.wstat (fun _ _ h => TMsg.wstat.inj h) (fun _ => rfl) (congrFun (Option.some.inj (C66_request_decoders (.wstat {}))))
  have hr : ∀ b, unmarshalRwstat b = (genUnmarshal wstatPack.R.schema b).map fun (v : Unit) => ⟨⟩ :=
    unmarshal_inj RMsg.wstat (fun _ _ h => RMsg.wstat.inj h) (fun _ => rfl) (congrFun (Option.some.inj (C66_reply_decoders (.wstat {}))))
  have he : ∀ b t (_ : RwstatPkt), wireEnc MT.Rwstat wstatPack.R b t (()) = marshalRwstat b t {} := fun b t _ =>
    Option.some.inj ((genMarshal_eq MT.Rwstat (schemaR (.wstat {})) b t (valR (.wstat {}))).symm.trans (C66_reply_encoders (.wstat {}) b t))
  refine ⟨(hs.server σ _ s b).trans (congrArg some (Eq.symm ?_)), fun v => ?_⟩
  · exact srvCall_map hd _ (fun (_ : Unit) => ()) (fun b t _ => he b t {}) s b
  · exact reply_eq hs v (unmarshal_inv hr (fun v => rfl)) rfl spare bb

/-- **C91** `SrvRclunk` and `CallTclunk` of genout.go are what the generator makes of `clunkPack`. -/
theorem C91_clunk {σ : Type} (ns : NineServer σ) (s : Server σ) (b : Buffer) (spare bb : Bytes) :
    clunkPack.server (fun (v : UInt32 × Unit) st => NRes.mapVal (fun _ => ()) (ns.Rclunk v.1 st)) s b =
      some (srvRclunk ns s b) ∧
    ∀ v, clunkPack.reply v spare bb = some (mapCall (fun r => toList clunkPack.R.schema (())) (callTclunk spare bb)) := by
  have hs := C91_packets clunkPack (by simp [packs])
  have hd : ∀ b, unmarshalTclunk b = (genUnmarshal clunkPack.T.schema b).map fun (v : UInt32 × Unit) => ⟨v.1⟩ :=
    unmarshal_inj TMsg.clunk (fun _ _ h => TMsg.clunk.inj h) (fun _ => rfl) (congrFun (Option.some.inj (C66_request_decoders (.clunk {}))))
  have hr : ∀ b, unmarshalRclunk b = (genUnmarshal clunkPack.R.schema b).map fun (v : Unit) => ⟨⟩ :=
    unmarshal_inj RMsg.clunk (fun _ _ h => RMsg.clunk.inj h) (fun _ => rfl) (congrFun (Option.some.inj (C66_reply_decoders (.clunk {}))))
  have he : ∀ b t (_ : RclunkPkt), wireEnc MT.Rclunk clunkPack.R b t (()) = marshalRclunk b t {} := fun b t _ =>
    Option.some.inj ((genMarshal_eq MT.Rclunk (schemaR (.clunk {})) b t (valR (.clunk {}))).symm.trans (C66_reply_encoders (.clunk {}) b t))
  refine ⟨(hs.server σ _ s b).trans (congrArg some (Eq.symm ?_)), fun v => ?_⟩
  · exact srvCall_map hd _ (fun (_ : Unit) => ()) (fun b t _ => he b t {}) s b
  · exact reply_eq hs v (unmarshal_inv hr (fun v => rfl)) rfl spare bb

/-- **C91** `SrvRremove` and `CallTremove` of genout.go are what the generator makes of `removePack`. -/
theorem C91_remove {σ : Type} (ns : NineServer σ) (s : Server σ) (b : Buffer) (spare bb : Bytes) :
    removePack.server (fun (v : UInt32 × Unit) st => NRes.mapVal (fun _ => ()) (ns.Rremove v.1 st)) s b =
      some (srvRremove ns s b) ∧
    ∀ v, removePack.reply v spare bb = some (mapCall (fun r => toList removePack.R.schema (())) (callTremove spare bb)) := by
  have hs := C91_packets removePack (by simp [packs])
  have hd : ∀ b, unmarshalTremove b = (genUnmarshal removePack.T.schema b).map fun (v : UInt32 × Unit) => ⟨v.1⟩ :=
    unmarshal_inj TMsg.remove (fun _ _ h => TMsg.remove.inj h) (fun _ => rfl) (congrFun (Option.some.inj (C66_request_decoders (.remove {}))))
  have hr : ∀ b, unmarshalRremove b = (genUnmarshal removePack.R.schema b).map fun (v : Unit) => ⟨⟩ :=
    unmarshal_inj RMsg.remove (fun _ _ h => RMsg.remove.inj h) (fun _ => rfl) (congrFun (Option.some.inj (C66_reply_decoders (.remove {}))))
  have he : ∀ b t (_ : RremovePkt), wireEnc MT.Rremove removePack.R b t (()) = marshalRremove b t {} := fun b t _ =>
    Option.some.inj ((genMarshal_eq MT.Rremove (schemaR (.remove {})) b t (valR (.remove {}))).symm.trans (C66_reply_encoders (.remove {}) b t))
  refine ⟨(hs.server σ _ s b).trans (congrArg some (Eq.symm ?_)), fun v => ?_⟩
  · exact srvCall_map hd _ (fun (_ : Unit) => ()) (fun b t _ => he b t {}) s b
  · exact reply_eq hs v (unmarshal_inv hr (fun v => rfl)) rfl spare bb

/-- **C91** `SrvRread` and `CallTread` of genout.go are what the generator makes of `readPack`. -/
theorem C91_read {σ : Type} (ns : NineServer σ) (s : Server σ) (b : Buffer) (spare bb : Bytes) :
    readPack.server (fun (v : UInt32 × UInt64 × Int32 × Unit) st => NRes.mapVal (fun q => (q, ())) (ns.Rread v.1 v.2.1 v.2.2.1 st)) s b =
      some (srvRread ns s b) ∧
    ∀ v, readPack.reply v spare bb = some (mapCall (fun r => toList readPack.R.schema (r.Data, ())) (callTread spare bb)) := by
  have hs := C91_packets readPack (by simp [packs])
  have hd : ∀ b, unmarshalTread b = (genUnmarshal readPack.T.schema b).map fun (v : UInt32 × UInt64 × Int32 × Unit) => ⟨v.1, v.2.1, v.2.2.1⟩ :=
    unmarshal_inj TMsg.read (fun _ _ h => TMsg.read.inj h) (fun _ => rfl) (congrFun (Option.some.inj (C66_request_decoders (.read {}))))
  have hr : ∀ b, unmarshalRread b = (genUnmarshal readPack.R.schema b).map fun (v : Bytes × Unit) => ⟨v.1⟩ :=
    unmarshal_inj RMsg.read (fun _ _ h => RMsg.read.inj h) (fun _ => rfl) (congrFun (Option.some.inj (C66_reply_decoders (.read {}))))
  have he : ∀ b t (r : RreadPkt), wireEnc MT.Rread readPack.R b t (r.Data, ()) = marshalRread b t r := fun b t r =>
    Option.some.inj ((genMarshal_eq MT.Rread (schemaR (.read r)) b t (valR (.read r))).symm.trans (C66_reply_encoders (.read r) b t))
  refine ⟨(hs.server σ _ s b).trans (congrArg some (Eq.symm ?_)), fun v => ?_⟩
  · exact srvCall_map hd _ (fun (q : Bytes) => (q, ())) (fun b t q => he b t ⟨q⟩) s b
  · exact reply_eq hs v (unmarshal_inv hr (fun v => rfl)) rfl spare bb

/-- **C91** `SrvRwrite` and `CallTwrite` of genout.go are what the generator makes of `writePack`. -/
theorem C91_write {σ : Type} (ns : NineServer σ) (s : Server σ) (b : Buffer) (spare bb : Bytes) :
    writePack.server (fun (v : UInt32 × UInt64 × Bytes × Unit) st => NRes.mapVal (fun q => (q, ())) (ns.Rwrite v.1 v.2.1 v.2.2.1 st)) s b =
      some (srvRwrite ns s b) ∧
    ∀ v, writePack.reply v spare bb = some (mapCall (fun r => toList writePack.R.schema (r.RLen, ())) (callTwrite spare bb)) := by
  have hs := C91_packets writePack (by simp [packs])
  have hd : ∀ b, unmarshalTwrite b = (genUnmarshal writePack.T.schema b).map fun (v : UInt32 × UInt64 × Bytes × Unit) => ⟨v.1, v.2.1, v.2.2.1⟩ :=
    unmarshal_inj TMsg.write (fun _ _ h => TMsg.write.inj h) (fun _ => rfl) (congrFun (Option.some.inj (C66_request_decoders (.write {}))))
  have hr : ∀ b, unmarshalRwrite b = (genUnmarshal writePack.R.schema b).map fun (v : Int32 × Unit) => ⟨v.1⟩ :=
    unmarshal_inj RMsg.write (fun _ _ h => RMsg.write.inj h) (fun _ => rfl) (congrFun (Option.some.inj (C66_reply_decoders (.write {}))))
  have he : ∀ b t (r : RwritePkt), wireEnc MT.Rwrite writePack.R b t (r.RLen, ()) = marshalRwrite b t r := fun b t r =>
    Option.some.inj ((genMarshal_eq MT.Rwrite (schemaR (.write r)) b t (valR (.write r))).symm.trans (C66_reply_encoders (.write r) b t))
  refine ⟨(hs.server σ _ s b).trans (congrArg some (Eq.symm ?_)), fun v => ?_⟩
  · exact srvCall_map hd _ (fun (q : Int32) => (q, ())) (fun b t q => he b t ⟨q⟩) s b
  · exact reply_eq hs v (unmarshal_inv hr (fun v => rfl)) rfl spare bb

end Gen
end Ninep
