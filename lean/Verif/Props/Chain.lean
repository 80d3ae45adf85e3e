import Verif.Model.ChainLemmas
import Verif.Props.Token

/-! # C21–C26, C36, C37: proof chains -/

namespace Verif
open Spec

namespace Chain

theorem fromUcan_sound (D : Deps) (E : Env) (nowTime : Option UInt64) (fuel : Nat) (u : Ucan) (w w' : World) (c : Chain) (hc : Coherent w.parser)
    (h : fromUcan D E nowTime fuel u w = (.ok c, w')) :
    c.ucan = u ∧ Sound D (ValidIn E nowTime w.parser.ctors w.tick w'.tick) (ReadIn E w.tick w'.tick) c :=
  fromUcanWith_sound D E nowTime _ u (ofToken_keeps D E nowTime fuel) (ofToken_sound D E nowTime fuel) w w' c hc h

theorem fromCid_sound (D : Deps) (E : Env) (nowTime : Option UInt64) (fuel : Nat) (cid : Cid) (w w' : World) (c : Chain) (hc : Coherent w.parser)
    (h : fromCid D E nowTime fuel cid w = (.ok c, w')) :
    (∃ token, cid.codec = Cid.rawCodec ∧ ReadIn E w.tick w'.tick cid (strBytes token) ∧ Ucan.fromStr D token = .ok c.ucan) ∧
    Sound D (ValidIn E nowTime w.parser.ctors w.tick w'.tick) (ReadIn E w.tick w'.tick) c := by
  unfold fromCid at h
  obtain ⟨tok, w1, h1, h⟩ := M.bind_ok.1 h
  obtain ⟨hcodec, hread, hw1⟩ := requireToken_ok h1
  have hk1 := requireToken_keeps hc h1
  have hk2 := ofToken_keeps D E nowTime fuel _ _ _ _ hk1.coherent h
  obtain ⟨hf, hs⟩ := ofToken_sound D E nowTime fuel _ _ _ _ hk1.coherent h
  have t1 : w1.tick = w.tick + 1 := by rw [hw1]
  have t2 := hk2.tick
  refine ⟨⟨tok, hcodec, ⟨w.tick, Nat.le_refl _, by omega, hread⟩, hf⟩, ?_⟩
  rw [hk1.ctors] at hs
  exact Sound.mono (fun u => ValidIn.mono hk1.tick (Nat.le_refl _) u) (fun c b => ReadIn.mono hk1.tick (Nat.le_refl _) c b) c hs

end Chain

open Chain

/-- A run of one of the three constructors that returned the chain `c`. -/
inductive Spec.Built (D : Deps) (E : Env) (nowTime : Option UInt64) (w w' : World) (c : Chain) : Prop
  | ofUcan (fuel : Nat) (u : Ucan) : Chain.fromUcan D E nowTime fuel u w = (.ok c, w') → Built D E nowTime w w' c
  | ofToken (fuel : Nat) (t : String) : Chain.ofToken D E nowTime fuel t w = (.ok c, w') → Built D E nowTime w w' c
  | ofCid (fuel : Nat) (cid : Cid) : Chain.fromCid D E nowTime fuel cid w = (.ok c, w') → Built D E nowTime w w' c

theorem Chain.built_sound {D : Deps} {E : Env} {nowTime : Option UInt64} {w w' : World} {c : Chain} (hc : Coherent w.parser)
    (h : Built D E nowTime w w' c) : Sound D (ValidIn E nowTime w.parser.ctors w.tick w'.tick) (ReadIn E w.tick w'.tick) c := by
  cases h with
  | ofUcan fuel u h => exact (fromUcan_sound D E nowTime fuel u w w' c hc h).2
  | ofToken fuel t h => exact (ofToken_sound D E nowTime fuel t w c w' hc h).2
  | ofCid fuel cid h => exact (fromCid_sound D E nowTime fuel cid w w' c hc h).2

/-! ## C21 Every UCAN of a chain was validated -/

/-- C21: every UCAN at any depth had a good signature under the key its issuer denotes, and was unexpired and active at instants of the run. -/
theorem C21_all_valid {D : Deps} {E : Env} {nowTime : Option UInt64} {w w' : World} {c : Chain} (hc : Coherent w.parser)
    (h : Built D E nowTime w w' c) (d : Chain) (hd : Sub d c) : ValidIn E nowTime w.parser.ctors w.tick w'.tick d.ucan :=
  (Sound.all (Sound.sub hd (built_sound hc h))).1

/-! ## C22 Every link is a delegation -/

/-- C22: every proof is addressed to the issuer of the UCAN it proves, and is in force whenever that UCAN is. -/
theorem C22_links {D : Deps} {E : Env} {nowTime : Option UInt64} {w w' : World} {c : Chain} (hc : Coherent w.parser)
    (h : Built D E nowTime w w' c) (d e : Chain) (hd : Sub d c) (he : e ∈ d.proofs) :
    e.ucan.payload.aud = d.ucan.payload.iss ∧ ∀ t, InLifetime d.ucan t → InLifetime e.ucan t := by
  obtain ⟨_, ha, _⟩ := Sound.all (Sound.sub hd (built_sound hc h))
  obtain ⟨h1, h2, h3⟩ := (SoundAll.mem ha e he).1
  exact ⟨h1, fun t ht => C11_sound _ _ ((encompasses_iff _ _).2 ⟨h2, h3⟩) t ht⟩

/-- C22 in terms of the bounds themselves: a bound of the proof forces a bound of the UCAN. -/
theorem C22_links_bounds {D : Deps} {E : Env} {nowTime : Option UInt64} {w w' : World} {c : Chain} (hc : Coherent w.parser)
    (h : Built D E nowTime w w' c) (d e : Chain) (hd : Sub d c) (he : e ∈ d.proofs) : Delegates e.ucan d.ucan := by
  obtain ⟨_, ha, _⟩ := Sound.all (Sound.sub hd (built_sound hc h))
  exact (SoundAll.mem ha e he).1

/-! ## C23 The chain mirrors the proof lists -/

/-- C23: one child per entry of the proof list, in order, each the parse of the token the store returned for the entry. -/
theorem C23_mirrors {D : Deps} {E : Env} {nowTime : Option UInt64} {w w' : World} {c : Chain} (hc : Coherent w.parser)
    (h : Built D E nowTime w w' c) (d : Chain) (hd : Sub d c) :
    d.proofs.length = (d.ucan.payload.prf.getD []).length ∧
    ∀ (i : Nat) (s : String) (e : Chain), (d.ucan.payload.prf.getD [])[i]? = some s → d.proofs[i]? = some e →
      Resolves D (ReadIn E w.tick w'.tick) s e.ucan := by
  obtain ⟨_, ha, _⟩ := Sound.all (Sound.sub hd (built_sound hc h))
  exact SoundAll.entry ha

/-- C23: the root is the UCAN given, the parse of the token given, or the parse of the token stored under the CID given. -/
theorem C23_root (D : Deps) (E : Env) (nowTime : Option UInt64) (fuel : Nat) (w w' : World) (c : Chain) (hc : Coherent w.parser) :
    (∀ u, fromUcan D E nowTime fuel u w = (.ok c, w') → c.ucan = u) ∧
    (∀ t, ofToken D E nowTime fuel t w = (.ok c, w') → Ucan.fromStr D t = .ok c.ucan) ∧
    (∀ cid, fromCid D E nowTime fuel cid w = (.ok c, w') → cid.codec = Cid.rawCodec ∧
      ∃ t, ReadIn E w.tick w'.tick cid (strBytes t) ∧ Ucan.fromStr D t = .ok c.ucan) := by
  refine ⟨fun u h => (fromUcan_sound D E nowTime fuel u w w' c hc h).1, fun t h => (ofToken_sound D E nowTime fuel t w c w' hc h).1,
    fun cid h => ?_⟩
  obtain ⟨⟨t, h1, h2, h3⟩, _⟩ := fromCid_sound D E nowTime fuel cid w w' c hc h
  exact ⟨h1, t, h2, h3⟩

/-! ## C24 Completeness -/

theorem Chain.validIn_fixed {E : Env} {nowTime : Option UInt64} {ctors : BMap Bytes KeyCtor} {t : UInt64} (ht : ClockFixed E t) {lo hi : Nat}
    (u : Ucan) (h : ValidIn E nowTime ctors lo hi u) : ValidAt nowTime ctors t u := by
  refine ⟨h.authentic, fun e he => ?_, fun n hn => ?_⟩
  · have := h.unexpired e he
    cases nowTime with
    | some t' => exact this
    | none =>
      obtain ⟨i, _, _, h3⟩ := this
      rw [ht i] at h3; exact h3
  · obtain ⟨i, _, _, h3⟩ := h.active n hn
    rw [ht i] at h3; exact h3

theorem Chain.holds_functional (E : Env) : Functional (Holds E) := by
  intro c b b' h h'
  unfold Holds at h h'
  rw [h] at h'
  cases h'; rfl

theorem Chain.validate_ok_of_validAt {E : Env} {nowTime : Option UInt64} {t : UInt64} (ht : ClockFixed E t) {u : Ucan} {w : World}
    (hc : Coherent w.parser) (h : ValidAt nowTime w.parser.ctors t u) : ∃ w', u.validate E nowTime w = (.ok (), w') := by
  have := (C12_validate_iff E u nowTime w hc).2 (by rw [ht, ht]; exact ⟨h.unexpired, h.active, h.authentic⟩)
  exact ⟨(u.validate E nowTime w).2, by rw [← this]⟩

theorem Chain.enables_fixed {E : Env} {nowTime : Option UInt64} {t : UInt64} (ht : ClockFixed E t) (hs : StoreFixed E)
    (ctors : BMap Bytes KeyCtor) : Enables E nowTime ctors 0 (ValidAt nowTime ctors t) (Holds E) :=
  ⟨fun u w hc hct _ hv => validate_ok_of_validAt ht hc (by rw [hct]; exact hv), fun i c b _ h => (hs i 0 c).trans h⟩

/-- C24: with a fixed clock and store, a token yields the chain `c` exactly when `c` is a sound tree for it. -/
theorem C24_complete (D : Deps) (E : Env) (nowTime : Option UInt64) (t : UInt64) (ht : ClockFixed E t) (hs : StoreFixed E) (token : String)
    (w : World) (hc : Coherent w.parser) (c : Chain) :
    (∃ fuel, (ofToken D E nowTime fuel token w).1 = .ok c) ↔
      Ucan.fromStr D token = .ok c.ucan ∧ Sound D (ValidAt nowTime w.parser.ctors t) (Holds E) c := by
  constructor
  · rintro ⟨fuel, h⟩
    obtain ⟨h1, h2⟩ := ofToken_sound D E nowTime fuel token w c _ hc (by rw [← h])
    refine ⟨h1, Sound.mono (fun u => validIn_fixed ht u) ?_ c h2⟩
    rintro cid b ⟨i, _, _, h3⟩
    rw [hs i 0] at h3; exact h3
  · rintro ⟨h1, h2⟩
    obtain ⟨w', h⟩ := ofToken_complete (enables_fixed ht hs _) (levels c) token w c hc rfl (Nat.zero_le _) (Nat.le_refl _) h1 h2
    exact ⟨levels c, by rw [h]⟩

/-- C24: as many levels as the tree has suffice, whatever the cache and instant. -/
theorem C24_depth (D : Deps) (E : Env) (nowTime : Option UInt64) (t : UInt64) (ht : ClockFixed E t) (hs : StoreFixed E) (token : String)
    (w : World) (hc : Coherent w.parser) (c : Chain) (h1 : Ucan.fromStr D token = .ok c.ucan)
    (h2 : Sound D (ValidAt nowTime w.parser.ctors t) (Holds E) c) (fuel : Nat) (hf : levels c ≤ fuel) :
    (ofToken D E nowTime fuel token w).1 = .ok c := by
  obtain ⟨w', h⟩ := ofToken_complete (enables_fixed ht hs _) fuel token w c hc rfl (Nat.zero_le _) hf h1 h2
  rw [h]

/-- C24: the tree is unique. -/
theorem C24_unique (D : Deps) (E : Env) (V : Ucan → Prop) (c d : Chain) (h : c.ucan = d.ucan) (hc : Sound D V (Holds E) c)
    (hd : Sound D V (Holds E) d) : c = d := Sound.unique (holds_functional E) c d h hc hd

/-- C24: a result other than running forever does not depend on the fuel of the model. -/
theorem C24_fuel_irrelevant (D : Deps) (E : Env) (nowTime : Option UInt64) (fuel fuel' : Nat) (t : String) (w : World)
    (h : (ofToken D E nowTime fuel t w).1 ≠ .error .diverge) (h' : (ofToken D E nowTime fuel' t w).1 ≠ .error .diverge) :
    ofToken D E nowTime fuel t w = ofToken D E nowTime fuel' t w := by
  rcases Nat.le_total fuel fuel' with hle | hle
  · exact (ofToken_fuel hle t w h).symm
  · exact ofToken_fuel hle t w h'

/-! ## C25 Lifetimes shrink along the chain -/

theorem Delegates.lifetime_trans {a b c : Ucan} (h1 : a.lifetimeEncompasses b = true) (h2 : Delegates b c) : a.lifetimeEncompasses c = true :=
  C11_trans a b c h1 ((encompasses_iff b c).2 ⟨h2.begins, h2.ends⟩)

theorem Chain.sub_encompasses {D : Deps} {V : Ucan → Prop} {F : Cid → Bytes → Prop} {c d : Chain} (hd : Sub d c) :
    Sound D V F c → d.ucan.lifetimeEncompasses c.ucan = true := by
  induction hd with
  | self => exact fun _ => C11_refl _
  | proof he _ ih =>
    intro h
    obtain ⟨h1, h2, _⟩ := SoundAll.mem (Sound.all h).2.1 _ he
    exact Delegates.lifetime_trans (ih h2) h1

/-- C25: whenever the root is in force, every UCAN at every depth is. -/
theorem C25_bounded {D : Deps} {E : Env} {nowTime : Option UInt64} {w w' : World} {c : Chain} (hc : Coherent w.parser)
    (h : Built D E nowTime w w' c) (d : Chain) (hd : Sub d c) (t : Int) (ht : InLifetime c.ucan t) : InLifetime d.ucan t :=
  C11_sound _ _ (sub_encompasses hd (built_sound hc h)) t ht

/-- C25: an expiry anywhere in the chain forces one no later on the root, and a not-before anywhere one no earlier. -/
theorem C25_bounds {D : Deps} {E : Env} {nowTime : Option UInt64} {w w' : World} {c : Chain} (hc : Coherent w.parser)
    (h : Built D E nowTime w w' c) (d : Chain) (hd : Sub d c) :
    (∀ e, d.ucan.payload.exp = some e → ∃ f, c.ucan.payload.exp = some f ∧ f ≤ e) ∧
    (∀ n, d.ucan.payload.nbf = some n → ∃ m, c.ucan.payload.nbf = some m ∧ n ≤ m) := by
  obtain ⟨h1, h2⟩ := (encompasses_iff _ _).1 (sub_encompasses hd (built_sound hc h))
  exact ⟨h2, h1⟩

/-! ## C26 One bad proof rejects the chain -/

/-- What can be wrong with a UCAN in the light of a store: it is not valid, an entry of its proof list stands for nothing, a
proof does not delegate to it, or it redelegates a proof it does not have. -/
inductive Spec.Defect (D : Deps) (V : Ucan → Prop) (F : Cid → Bytes → Prop) (v : Ucan) : Prop
  | invalid : ¬ V v → Defect D V F v
  | missing (s : String) : s ∈ v.payload.prf.getD [] → (∀ x, ¬ Resolves D F s x) → Defect D V F v
  | link (s : String) (x : Ucan) : s ∈ v.payload.prf.getD [] → Resolves D F s x → ¬ Delegates x v → Defect D V F v
  | redelegation (c : Capability) (i : Nat) : c ∈ v.payload.cap.iter → Redelegates D c i → (v.payload.prf.getD []).length ≤ i → Defect D V F v

theorem Chain.no_defect {D : Deps} {V : Ucan → Prop} {F : Cid → Bytes → Prop} (hF : Functional F) {c : Chain} (h : Sound D V F c) :
    ¬ Defect D V F c.ucan := by
  obtain ⟨hv, ha, hr⟩ := Sound.all h
  obtain ⟨hlen, hent⟩ := SoundAll.entry ha
  have key : ∀ s ∈ c.ucan.payload.prf.getD [], ∃ e ∈ c.proofs, Resolves D F s e.ucan := by
    intro s hs
    obtain ⟨i, hi⟩ := List.mem_iff_getElem?.1 hs
    obtain ⟨hilt, _⟩ := List.getElem?_eq_some_iff.1 hi
    have hci : c.proofs[i]? = some c.proofs[i] := List.getElem?_eq_getElem (by omega)
    exact ⟨_, List.getElem_mem _, hent i s _ hi hci⟩
  intro hd
  cases hd with
  | invalid h => exact h hv
  | missing s hs h =>
    obtain ⟨e, _, he⟩ := key s hs
    exact h _ he
  | link s x hs hx h =>
    obtain ⟨e, hmem, he⟩ := key s hs
    rw [Resolves.unique hF hx he] at h
    exact h (SoundAll.mem ha e hmem).1
  | redelegation cap i hcap hred hle =>
    have := hr.inRange i ((hr.claimed i).2 ⟨cap, hcap, hred⟩)
    omega

/-- C26: with a fixed clock and store, if anything reachable from a UCAN through proof lists has a defect, no chain is returned. -/
theorem C26_bad_proof (D : Deps) (E : Env) (nowTime : Option UInt64) (t : UInt64) (ht : ClockFixed E t) (hs : StoreFixed E) (fuel : Nat)
    (u v : Ucan) (w : World) (hc : Coherent w.parser) (hr : Reaches D (Holds E) u v)
    (hd : Defect D (ValidAt nowTime w.parser.ctors t) (Holds E) v) (c : Chain) : (fromUcan D E nowTime fuel u w).1 ≠ .ok c := by
  intro h
  obtain ⟨e, hsound⟩ := fromUcan_sound D E nowTime fuel u w _ c hc (by rw [← h])
  have hsound' : Sound D (ValidAt nowTime w.parser.ctors t) (Holds E) c := by
    refine Sound.mono (fun u => validIn_fixed ht u) ?_ c hsound
    rintro cid b ⟨i, _, _, h3⟩
    rw [hs i 0] at h3; exact h3
  obtain ⟨d, hsub, rfl⟩ := reaches_sub (holds_functional E) hr c e hsound'
  exact no_defect (holds_functional E) (Sound.sub hsub hsound') hd

/-- C26 for a token. -/
theorem C26_bad_proof_token (D : Deps) (E : Env) (nowTime : Option UInt64) (t : UInt64) (ht : ClockFixed E t) (hs : StoreFixed E) (fuel : Nat)
    (token : String) (u v : Ucan) (hu : Ucan.fromStr D token = .ok u) (w : World) (hc : Coherent w.parser) (hr : Reaches D (Holds E) u v)
    (hd : Defect D (ValidAt nowTime w.parser.ctors t) (Holds E) v) (c : Chain) : (ofToken D E nowTime fuel token w).1 ≠ .ok c := by
  cases fuel with
  | zero => intro h; cases h
  | succ fuel =>
    rw [ofToken, hu]
    exact C26_bad_proof D E nowTime t ht hs fuel u v w hc hr hd c

/-- C26: an expired token anywhere below defeats the chain. -/
theorem C26_expired (D : Deps) (E : Env) (nowTime : Option UInt64) (t : UInt64) (ht : ClockFixed E t) (hs : StoreFixed E) (fuel : Nat)
    (u v : Ucan) (w : World) (hc : Coherent w.parser) (hr : Reaches D (Holds E) u v) (e : UInt64) (he : v.payload.exp = some e)
    (hlt : e < nowTime.getD t) (c : Chain) : (fromUcan D E nowTime fuel u w).1 ≠ .ok c :=
  C26_bad_proof D E nowTime t ht hs fuel u v w hc hr (.invalid (fun h => absurd hlt (UInt64.not_lt.2 (h.unexpired e he)))) c

/-! ## C36 Termination -/

namespace Chain

/-- Something the store has ever to offer for a CID. -/
def EverRead (E : Env) (c : Cid) (b : Bytes) : Prop := ∃ i, E.read i c = .ok (some (.bytes b))

/-- `v` stands for an entry of the proof list of `u`. -/
def Refers (D : Deps) (E : Env) (v u : Ucan) : Prop := ∃ s ∈ u.payload.prf.getD [], Resolves D (EverRead E) s v

/-- Store and keys themselves return. -/
structure Calm (E : Env) (ctors : BMap Bytes KeyCtor) : Prop where
  read : ∀ i c, E.read i c ≠ .error .diverge
  ctor : ∀ m ctor, BMap.get? ctors m = some ctor → ∀ b, ctor b ≠ .error .diverge
  verify : ∀ did key, Denotes ctors did key → ∀ d s, key.verify d s ≠ .error .diverge

theorem bind_calm {α β : Type} {x : M α} {f : α → M β} {w : World} (hx : (x w).1 ≠ .error .diverge)
    (hf : ∀ a w1, x w = (.ok a, w1) → (f a w1).1 ≠ .error .diverge) : ((x >>= f) w).1 ≠ .error .diverge := by
  cases hxw : x w with
  | mk r w1 =>
    cases r with
    | ok a => rw [M.bind_of_ok hxw]; exact hf a w1 hxw
    | error e =>
      rw [M.bind_of_error hxw]
      rw [hxw] at hx
      intro h
      apply hx
      cases h; rfl

theorem resolve_calm {ctors : BMap Bytes KeyCtor} (h : ∀ m ctor, BMap.get? ctors m = some ctor → ∀ b, ctor b ≠ .error .diverge)
    (did : String) : DidParser.resolve ctors did ≠ .error .diverge := by
  unfold DidParser.resolve
  split
  · simp [err]
  · split
    · split
      · rename_i hg; exact h _ _ hg _
      · simp [err]
    · simp [panicked]

theorem parse_calm {p : DidParser} (h : ∀ m ctor, BMap.get? p.ctors m = some ctor → ∀ b, ctor b ≠ .error .diverge) (did : String) :
    (p.parse did).1 ≠ .error .diverge := by
  unfold DidParser.parse
  split
  · split
    · simp
    · split
      · simp
      · rename_i e he
        intro h'
        apply resolve_calm h did
        rw [he]
        exact h'
  · simp [err]

theorem validate_calm {E : Env} {u : Ucan} {nowTime : Option UInt64} {w : World} (hc : Coherent w.parser) (hk : Calm E w.parser.ctors) :
    (u.validate E nowTime w).1 ≠ .error .diverge := by
  obtain ⟨b, hb⟩ := (C10_total E u nowTime w).1
  have hb' : u.isExpired E nowTime w = (.ok b, (u.isExpired E nowTime w).2) := by rw [← hb]
  obtain ⟨hp1, _, _⟩ := isExpired_false hb'
  unfold Ucan.validate
  rw [M.bind_of_ok hb']
  cases b with
  | true => simp [err]
  | false =>
    simp only [Bool.false_eq_true, if_false]
    obtain ⟨b2, hb2⟩ := (C10_total E u nowTime (u.isExpired E nowTime w).2).2
    have hb2' : u.isTooEarly E (u.isExpired E nowTime w).2 = (.ok b2, (u.isTooEarly E (u.isExpired E nowTime w).2).2) := by rw [← hb2]
    obtain ⟨hp2, _, _⟩ := isTooEarly_false hb2'
    rw [M.bind_of_ok hb2']
    cases b2 with
    | true => simp [err]
    | false =>
      simp only [Bool.false_eq_true, if_false]
      unfold Ucan.checkSignature
      have hpp : (u.isTooEarly E (u.isExpired E nowTime w).2).2.parser = w.parser := hp2.trans hp1
      refine bind_calm ?_ ?_
      · show (DidParser.parse _ _).1 ≠ _
        rw [hpp]
        exact parse_calm hk.ctor _
      · intro key w1 hkey
        have : (w.parser.parse u.payload.iss).1 = .ok key := by
          rw [← hpp]
          exact congrArg Prod.fst hkey
        exact hk.verify _ key ((DidParser.parse_ok_iff hc _ _).1 this) _ _

theorem orErr_calm {α : Type} (e : Err) (o : Option α) : orErr e o ≠ .error .diverge := by
  cases o <;> simp [orErr, err]

theorem decodePart_calm {α : Type} (f : Bytes → Option α) (b : Bytes) : Ucan.decodePart f b ≠ .error .diverge := by
  unfold Ucan.decodePart
  split
  · simp [err]
  · exact orErr_calm _ _

theorem requireToken_calm {E : Env} {c : Cid} {w : World} (h : ∀ i c, E.read i c ≠ .error .diverge) :
    (Store.requireToken E c w).1 ≠ .error .diverge := by
  rw [requireToken_eq]
  split
  · simp [err]
  · simp only
    split
    · unfold Store.tokenOf
      split
      · exact orErr_calm _ _
      · simp [err]
    · rename_i e he
      intro h'
      exact h w.tick c (by rw [he]; cases h'; rfl)

theorem redelLoop_calm (n : Nat) (vs : List (View ProofSelection ProofAction)) : ∀ acc, redelLoop n acc vs ≠ .error .diverge := by
  induction vs with
  | nil => intro acc; simp [redelLoop]
  | cons v vs ih =>
    intro acc
    unfold redelLoop
    split
    · exact ih _
    · rename_i e he
      intro h'
      cases h'
      unfold redelStep at he
      split at he
      · cases he
      · split at he <;> cases he
      · cases he

theorem validateLink_calm (a b : Ucan) : validateLink a b ≠ .error .diverge := by
  unfold validateLink
  split
  · split <;> simp [err]
  · simp [err]

/-- The construction from `u` returns the same for all large enough fuels. -/
def Settles (D : Deps) (E : Env) (nowTime : Option UInt64) (u : Ucan) (w : World) : Prop :=
  ∃ N, (fromUcan D E nowTime N u w).1 ≠ .error .diverge

theorem proofsLoop_settles {D : Deps} {E : Env} {nowTime : Option UInt64} {ctors : BMap Bytes KeyCtor} (hk : Calm E ctors) (u : Ucan)
    (hfs : ∀ t, Ucan.fromStr D t ≠ .error .diverge) (ss : List String)
    (hss : ∀ s ∈ ss, ∀ v, Resolves D (EverRead E) s v → ∀ w, Coherent w.parser → w.parser.ctors = ctors → Settles D E nowTime v w) :
    ∀ w, Coherent w.parser → w.parser.ctors = ctors → ∃ N, (proofsLoop D E (ofToken D E nowTime N) u ss w).1 ≠ .error .diverge := by
  induction ss with
  | nil => intro w _ _; exact ⟨0, by simp [proofsLoop]⟩
  | cons s ss ih =>
    intro w hc hct
    cases hcid : Cid.parse D s with
    | none =>
      refine ⟨0, ?_⟩
      unfold proofsLoop
      rw [hcid]
      exact bind_calm (by simp [orErr, err]) (fun a w1 h => by cases h)
    | some cid =>
      cases hreq : Store.requireToken E cid w with
      | mk r1 w1 =>
        have hk1 := requireToken_keeps hc hreq
        cases r1 with
        | error e =>
          refine ⟨0, ?_⟩
          unfold proofsLoop
          refine bind_calm (orErr_calm _ _) (fun a w2 h => ?_)
          rw [hcid] at h
          cases h
          refine bind_calm (requireToken_calm hk.read) (fun a w2 h => ?_)
          rw [hreq] at h
          cases h
        | ok tok =>
          cases hu : Ucan.fromStr D tok with
          | error e =>
            refine ⟨1, ?_⟩
            unfold proofsLoop
            refine bind_calm (orErr_calm _ _) (fun a w2 h => ?_)
            rw [hcid] at h
            cases h
            refine bind_calm (requireToken_calm hk.read) (fun a w2 h => ?_)
            rw [hreq] at h
            cases h
            have hrec : ofToken D E nowTime 1 tok w1 = (.error e, w1) := by
              rw [ofToken, hu]
              exact M.bind_of_error rfl
            have hne : e ≠ .diverge := fun h => hfs tok (by rw [hu, h])
            refine bind_calm (by rw [hrec]; simpa using hne) (fun a w2 h => ?_)
            rw [hrec] at h
            cases h
          | ok v =>
            have hres : Resolves D (EverRead E) s v := by
              obtain ⟨h1, h2, _⟩ := requireToken_ok hreq
              exact ⟨cid, tok, hcid, h1, ⟨_, h2⟩, hu⟩
            obtain ⟨N1, hN1⟩ := hss s (by simp) v hres w1 hk1.coherent (hk1.ctors.trans hct)
            cases hrun : fromUcan D E nowTime N1 v w1 with
            | mk r2 w2 =>
              have hk2 := fromUcanWith_keeps D E nowTime _ v (ofToken_keeps D E nowTime N1) _ _ _ hk1.coherent hrun
              rw [hrun] at hN1
              obtain ⟨N2, hN2⟩ := ih (fun s hs => hss s (by simp [hs])) w2 hk2.coherent (hk2.ctors.trans (hk1.ctors.trans hct))
              refine ⟨max (N1 + 1) N2, ?_⟩
              have hrec : ofToken D E nowTime (max (N1 + 1) N2) tok w1 = (r2, w2) := by
                have h1 : ofToken D E nowTime (N1 + 1) tok w1 = (r2, w2) := by
                  rw [ofToken, hu]
                  exact hrun
                rw [ofToken_fuel (Nat.le_max_left _ _) tok w1 (by rw [h1]; exact hN1), h1]
              have hloop := proofsLoop_agree (D := D) (E := E) (u := u)
                (fun t w => ofToken_fuel (D := D) (E := E) (nowTime := nowTime) (Nat.le_max_right (N1 + 1) N2) t w) ss w2 hN2
              unfold proofsLoop
              refine bind_calm (orErr_calm _ _) (fun a w3 h => ?_)
              rw [hcid] at h
              cases h
              refine bind_calm (requireToken_calm hk.read) (fun a w3 h => ?_)
              rw [hreq] at h
              cases h
              refine bind_calm (by rw [hrec]; exact hN1) (fun c w3 h => ?_)
              rw [hrec] at h
              cases h
              refine bind_calm (validateLink_calm _ _) (fun _ w3 h => ?_)
              obtain ⟨_, rfl⟩ := Prod.mk.inj h
              refine bind_calm (by rw [hloop]; exact hN2) (fun cs w3 h => by simp)

theorem fromStr_calm (D : Deps) (t : String) : Ucan.fromStr D t ≠ .error .diverge := by
  unfold Ucan.fromStr Ucan.ofBytes
  simp only
  split
  · simp [err]
  · split
    · rename_i e he
      intro h; cases h
      exact decodePart_calm _ _ he
    · split
      · simp [err]
      · split
        · rename_i e he
          intro h; cases h
          exact decodePart_calm _ _ he
        · split
          · simp [err]
          · split <;> simp [err]

theorem settles {D : Deps} {E : Env} {nowTime : Option UInt64} {ctors : BMap Bytes KeyCtor} (hk : Calm E ctors) (u : Ucan)
    (hacc : Acc (Refers D E) u) : ∀ w, Coherent w.parser → w.parser.ctors = ctors → Settles D E nowTime u w := by
  induction hacc with
  | intro u _ ih =>
    intro w hc hct
    cases hv : u.validate E nowTime w with
    | mk r w1 =>
      obtain ⟨k1, k2, _⟩ := validate_world hc hv
      obtain ⟨N, hN⟩ := proofsLoop_settles hk u (fromStr_calm D) (u.payload.prf.getD []) (nowTime := nowTime)
        (fun s hs v hres w hc hct => ih v ⟨s, hs, hres⟩ w hc hct) w1 k1 (k2.trans hct)
      refine ⟨N, ?_⟩
      unfold fromUcan fromUcanWith
      refine bind_calm (validate_calm hc (by rw [hct]; exact hk)) (fun _ w2 h => ?_)
      rw [hv] at h
      cases h
      refine bind_calm hN (fun cs w2 _ => ?_)
      refine bind_calm (redelLoop_calm _ _ _) (fun _ _ _ => by simp)

end Chain

/-- C36: if references through the store are well founded from `u` on, construction from `u` returns, and returns the same from
some recursion depth on, whatever the clock and the store do between readings. -/
theorem C36_terminates (D : Deps) (E : Env) (nowTime : Option UInt64) (u : Ucan) (w : World) (hc : Coherent w.parser)
    (hk : Calm E w.parser.ctors) (hacc : Acc (Refers D E) u) :
    ∃ N r w', r ≠ .error .diverge ∧ ∀ fuel, N ≤ fuel → fromUcan D E nowTime fuel u w = (r, w') := by
  obtain ⟨N, hN⟩ := settles hk u hacc w hc rfl (nowTime := nowTime)
  exact ⟨N, _, _, hN, fun fuel hf => fromUcan_fuel hf u w hN⟩

/-- A set of valid UCANs whose first proof is again in the set. -/
structure Spec.Endless (D : Deps) (E : Env) (nowTime : Option UInt64) (ctors : BMap Bytes KeyCtor) (P : Ucan → Prop) : Prop where
  valid : ∀ u, P u → ∀ w, Coherent w.parser → w.parser.ctors = ctors → (u.validate E nowTime w).1 = .ok ()
  next : ∀ u, P u → ∃ s ss v, u.payload.prf.getD [] = s :: ss ∧ Resolves D (fun c b => ∀ i, E.read i c = .ok (some (.bytes b))) s v ∧ P v

/-- C36: references that never end make the construction recurse beyond every depth. -/
theorem C36_endless (D : Deps) (E : Env) (nowTime : Option UInt64) (ctors : BMap Bytes KeyCtor) (P : Ucan → Prop)
    (hP : Endless D E nowTime ctors P) (fuel : Nat) : ∀ (u : Ucan) (w : World), P u → Coherent w.parser → w.parser.ctors = ctors →
      (fromUcan D E nowTime fuel u w).1 = .error .diverge := by
  induction fuel with
  | zero =>
    intro u w hu hc hct
    obtain ⟨s, ss, v, hprf, ⟨cid, tok, h1, h2, h3, h4⟩, _⟩ := hP.next u hu
    have hv : u.validate E nowTime w = (.ok (), (u.validate E nowTime w).2) := by rw [← hP.valid u hu w hc hct]
    unfold fromUcan fromUcanWith
    rw [M.bind_of_ok hv, show u.proofs.getD [] = s :: ss from hprf]
    have hloop : ∀ w, ∃ w', proofsLoop D E (ofToken D E nowTime 0) u (s :: ss) w = (.error .diverge, w') := by
      intro w
      refine ⟨{ w with tick := w.tick + 1 }, ?_⟩
      rw [proofsLoop, h1]
      refine (M.bind_of_ok (x := M.lift (orErr .cidText (some cid))) (a := cid) (w1 := w) rfl).trans ?_
      rw [M.bind_of_ok (requireToken_of_read h2 (h3 _))]
      exact M.bind_of_error rfl
    obtain ⟨w', h⟩ := hloop (u.validate E nowTime w).2
    rw [M.bind_of_error h]
  | succ fuel ih =>
    intro u w hu hc hct
    obtain ⟨s, ss, v, hprf, ⟨cid, tok, h1, h2, h3, h4⟩, hPv⟩ := hP.next u hu
    have hv : u.validate E nowTime w = (.ok (), (u.validate E nowTime w).2) := by rw [← hP.valid u hu w hc hct]
    obtain ⟨k1, k2, _⟩ := validate_world hc hv
    unfold fromUcan fromUcanWith
    rw [M.bind_of_ok hv, show u.proofs.getD [] = s :: ss from hprf]
    have hloop : ∀ w, Coherent w.parser → w.parser.ctors = ctors →
        ∃ w', proofsLoop D E (ofToken D E nowTime (fuel + 1)) u (s :: ss) w = (.error .diverge, w') := by
      intro w hc hct
      have := ih v { w with tick := w.tick + 1 } hPv hc hct
      refine ⟨(fromUcan D E nowTime fuel v { w with tick := w.tick + 1 }).2, ?_⟩
      rw [proofsLoop, h1]
      refine (M.bind_of_ok (x := M.lift (orErr .cidText (some cid))) (a := cid) (w1 := w) rfl).trans ?_
      rw [M.bind_of_ok (requireToken_of_read h2 (h3 _))]
      apply M.bind_of_error
      rw [ofToken, h4]
      show fromUcan D E nowTime fuel v _ = _
      rw [← this]
    obtain ⟨w', h⟩ := hloop (u.validate E nowTime w).2 k1 (k2.trans hct)
    rw [M.bind_of_error h]

/-! ## C37 Concurrent writers -/

/-- How a memory store changes: blocks are written, none under the CID of a different block. -/
inductive Spec.Grows (D : Deps) : Store.Dags → Store.Dags → Prop
  | refl (m : Store.Dags) : Grows D m m
  | write {m m' : Store.Dags} (b : Bytes) : Grows D m m' → (∀ b', m' (Store.blockCid D b) = some b' → b' = b) →
      Grows D m (Store.memWrite D m' (.bytes b)).2

theorem Chain.grows_keeps {D : Deps} {m m' : Store.Dags} (h : Grows D m m') (c : Cid) (b : Bytes) : m c = some b → m' c = some b := by
  induction h with
  | refl => exact id
  | write b' _ hcol ih =>
    intro h
    have h' := ih h
    show (if c = Store.blockCid D b' then some b' else _) = _
    split
    · rename_i e
      rw [e] at h'
      rw [hcol b h']
    · exact h'

/-- A memory store with content `m` and the clock at `t`. -/
def Spec.still (m : Store.Dags) (t : UInt64) : Env := ⟨fun _ => t, fun _ c => Store.memRead m c⟩

/-- A memory store whose content at tick `i` is `dags i`, and the clock at `t`. -/
def Spec.shared (dags : Nat → Store.Dags) (t : UInt64) : Env := ⟨fun _ => t, fun i c => Store.memRead (dags i) c⟩

theorem Chain.memRead_bytes {m : Store.Dags} {c : Cid} {b : Bytes} : Store.memRead m c = .ok (some (.bytes b)) ↔ m c = some b := by
  unfold Store.memRead
  cases m c <;> simp

theorem Chain.grows_le {D : Deps} {dags : Nat → Store.Dags} (hg : ∀ i, Grows D (dags i) (dags (i + 1))) {i j : Nat} (h : i ≤ j) (c : Cid)
    (b : Bytes) (hb : dags i c = some b) : dags j c = some b := by
  induction h with
  | refl => exact hb
  | step _ ih => exact grows_keeps (hg _) c b ih

/-- C37: a chain built while others write is the one built against the content at the end of the run, or at any later time. -/
theorem C37_final (D : Deps) (nowTime : Option UInt64) (t : UInt64) (dags : Nat → Store.Dags) (hg : ∀ i, Grows D (dags i) (dags (i + 1)))
    (fuel : Nat) (token : String) (w w' : World) (hc : Coherent w.parser) (c : Chain)
    (h : ofToken D (shared dags t) nowTime fuel token w = (.ok c, w')) (j : Nat) (hj : w'.tick ≤ j) (v : World) (hv : Coherent v.parser)
    (hct : v.parser.ctors = w.parser.ctors) : ∃ fuel', (ofToken D (still (dags j) t) nowTime fuel' token v).1 = .ok c := by
  obtain ⟨h1, h2⟩ := ofToken_sound D _ nowTime fuel token w c w' hc h
  rw [C24_complete D (still (dags j) t) nowTime t (fun _ => rfl) (fun _ _ _ => rfl) token v hv c, hct]
  refine ⟨h1, Sound.mono (fun u => validIn_fixed (fun _ => rfl) u) ?_ c h2⟩
  rintro cid b ⟨i, _, hi, h3⟩
  exact memRead_bytes.2 (grows_le hg (by omega) cid b (memRead_bytes.1 h3))

/-- C37: what succeeds against the content at the start succeeds while others write, with the same chain. -/
theorem C37_initial (D : Deps) (nowTime : Option UInt64) (t : UInt64) (dags : Nat → Store.Dags) (hg : ∀ i, Grows D (dags i) (dags (i + 1)))
    (fuel : Nat) (token : String) (v w : World) (hv : Coherent v.parser) (hw : Coherent w.parser) (hct : v.parser.ctors = w.parser.ctors)
    (c : Chain) (h : (ofToken D (still (dags w.tick) t) nowTime fuel token v).1 = .ok c) :
    ∃ fuel', (ofToken D (shared dags t) nowTime fuel' token w).1 = .ok c := by
  obtain ⟨h1, h2⟩ := (C24_complete D (still (dags w.tick) t) nowTime t (fun _ => rfl) (fun _ _ _ => rfl) token v hv c).1 ⟨fuel, h⟩
  have hE : Enables (shared dags t) nowTime w.parser.ctors w.tick (ValidAt nowTime w.parser.ctors t) (Holds (still (dags w.tick) t)) :=
    ⟨fun u w' hc hct' _ hv => validate_ok_of_validAt (fun _ => rfl) hc (by rw [hct']; exact hv),
      fun i c b hi hb => memRead_bytes.2 (grows_le hg hi c b (memRead_bytes.1 hb))⟩
  rw [hct] at h2
  obtain ⟨w', h'⟩ := ofToken_complete hE (levels c) token w c hw rfl (Nat.le_refl _) (Nat.le_refl _) h1 h2
  exact ⟨levels c, by rw [h']⟩

end Verif
