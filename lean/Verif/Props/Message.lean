import Verif.Spec.Message
import Verif.Props.Debug
import Verif.Props.ChainExamples

/-! # C119: the texts of refusals -/

namespace Verif
open Spec Told

namespace Told

/-! ## Without the texts it is the same validation -/

/-- Forget the text. -/
def forget {α : Type} : Except Refusal α → Res α
  | .ok a => .ok a
  | .error r => .error r.fail

def drop {α : Type} (x : T α) : M α := fun w => (forget (x w).1, (x w).2)

theorem drop_pure {α : Type} (a : α) : drop (pure a : T α) = (pure a : M α) := rfl
theorem drop_lift {α : Type} (r : Except Refusal α) : drop (T.lift r) = M.lift (forget r) := rfl
theorem drop_foreign {α : Type} (x : M α) : drop (T.foreign x) = x := by
  funext w
  unfold drop T.foreign
  split <;> rename_i h <;> rw [h] <;> rfl
theorem forget_other {α : Type} (r : Res α) : forget (other r) = r := by cases r <;> rfl
theorem forget_says {α : Type} (e : Err) (t : List Char) : forget (says e t : Except Refusal α) = err e := rfl

theorem drop_bind {α β : Type} (x : T α) (f : α → T β) : drop (x >>= f) = drop x >>= fun a => drop (f a) := by
  funext w
  show (forget (T.bind x f w).1, (T.bind x f w).2) = M.bind (drop x) (fun a => drop (f a)) w
  unfold T.bind M.bind drop
  cases h : (x w).1 with
  | ok a =>
    have : x w = (.ok a, (x w).2) := by rw [← h]
    rw [this]
    rfl
  | error e =>
    have : x w = (.error e, (x w).2) := by rw [← h]
    rw [this]
    rfl

theorem forget_resolve (ctors : BMap Bytes KeyCtor) (did : String) : forget (resolve ctors did) = DidParser.resolve ctors did := by
  unfold resolve DidParser.resolve
  cases Base58.decode ((strBytes did).drop Did.didKeyPrefix.length) with
  | none => rfl
  | some b =>
    rcases b with _ | ⟨b0, _ | ⟨b1, rest⟩⟩
    · rfl
    · rfl
    · simp only
      cases BMap.get? ctors [b0, b1] with
      | none => rfl
      | some ctor => exact forget_other _

theorem parse_same (p : DidParser) (did : String) : (forget (parse p did).1, (parse p did).2) = p.parse did := by
  unfold parse DidParser.parse
  split
  · cases BMap.get? p.cache did with
    | some key => rfl
    | none =>
      simp only
      rw [← forget_resolve]
      cases resolve p.ctors did <;> rfl
  · rfl

theorem drop_parseDid (did : String) : drop (parseDid did) = Verif.parseDid did := by
  funext w
  unfold drop parseDid Verif.parseDid
  rw [← parse_same]

theorem drop_checkSignature (u : Ucan) : drop (checkSignature u) = u.checkSignature := by
  unfold checkSignature Ucan.checkSignature
  rw [drop_bind, drop_parseDid]
  simp only [drop_lift, forget_other]

theorem drop_validate (E : Env) (u : Ucan) (nowTime : Option UInt64) : drop (validate E u nowTime) = u.validate E nowTime := by
  unfold validate Ucan.validate
  rw [drop_bind, drop_foreign]
  congr 1
  funext expired
  cases expired with
  | true => rfl
  | false =>
    simp only [Bool.false_eq_true, if_false]
    rw [drop_bind, drop_foreign]
    congr 1
    funext early
    cases early with
    | true => rfl
    | false => exact drop_checkSignature u

theorem forget_decodePart {α : Type} (f : Bytes → Option α) (name : String) (part : Bytes) :
    forget (decodePart f name part) = Ucan.decodePart f part := by
  unfold decodePart Ucan.decodePart
  cases Base64.decode part with
  | none => rfl
  | some b =>
    show forget (match f b with | none => _ | some a => _) = orErr .json (f b)
    cases f b <;> rfl

theorem forget_ofBytes (D : Deps) (token : Bytes) : forget (ofBytes D token) = Ucan.ofBytes D token := by
  unfold ofBytes Ucan.ofBytes
  simp only
  cases splitByte 46 token with
  | nil => rfl
  | cons p0 rest =>
    simp only
    rw [← forget_decodePart _ "header"]
    cases decodePart (Codec.headerOfBytes D) "header" p0 with
    | error e => rfl
    | ok header =>
      cases rest with
      | nil => rfl
      | cons p1 rest =>
        simp only [forget]
        rw [← forget_decodePart _ "payload"]
        cases decodePart (Codec.payloadOfBytes D) "payload" p1 with
        | error e => rfl
        | ok payload =>
          cases rest with
          | nil => rfl
          | cons p2 rest =>
            simp only [forget]
            cases Base64.decode p2 <;> rfl

theorem forget_fromStr (D : Deps) (token : String) : forget (fromStr D token) = Ucan.fromStr D token := forget_ofBytes D _

theorem drop_requireToken (E : Env) (c : Cid) : drop (requireToken E c) = Store.requireToken E c := by
  unfold requireToken Store.requireToken
  rw [drop_bind]
  have h : drop (readToken E c) = Store.readToken E c := by
    unfold readToken Store.readToken
    split
    · rfl
    · rw [drop_bind, drop_foreign]
      congr 1
      funext r
      rw [drop_bind, drop_lift]
      have : forget (tokenOf c r) = Store.tokenOf r := by
        rcases r with _ | r
        · rfl
        · cases r <;> first | rfl | exact forget_other _
      rw [this]
      rfl
  rw [h]
  congr 1
  funext o
  cases o <;> rfl

theorem forget_validateLink (a b : Ucan) : forget (validateLink a b) = Chain.validateLink a b := by
  unfold validateLink Chain.validateLink
  split
  · split <;> rfl
  · rfl

theorem forget_redelLoop (n : Nat) : ∀ (l : List (View ProofSelection ProofAction)) (acc : BSet Nat),
    forget (redelLoop n acc l) = Chain.redelLoop n acc l
  | [], acc => rfl
  | v :: vs, acc => by
    have h : forget (redelStep n acc v) = Chain.redelStep n acc v := by
      unfold redelStep Chain.redelStep
      rcases v.resource with (_ | i) | _ | _
      · rename_i s
        cases s with
        | all => rfl
        | index i =>
          simp only
          split <;> rfl
      all_goals rfl
    unfold redelLoop Chain.redelLoop
    rw [← h]
    cases redelStep n acc v with
    | ok acc' => exact forget_redelLoop n vs acc'
    | error e => rfl

theorem drop_proofsLoop (D : Deps) (E : Env) (rec : String → T Chain) (rec' : String → M Chain) (hr : ∀ t, drop (rec t) = rec' t) (u : Ucan) :
    ∀ l, drop (proofsLoop D E rec u l) = Chain.proofsLoop D E rec' u l
  | [] => rfl
  | s :: ss => by
    unfold proofsLoop Chain.proofsLoop
    rw [drop_bind, drop_lift, forget_other]
    congr 1
    funext cid
    rw [drop_bind, drop_requireToken]
    congr 1
    funext token
    rw [drop_bind, hr]
    congr 1
    funext c
    rw [drop_bind, drop_lift, forget_validateLink]
    congr 1
    funext _
    rw [drop_bind, drop_proofsLoop D E rec rec' hr u ss]
    rfl

theorem drop_ofToken (D : Deps) (E : Env) (nowTime : Option UInt64) : ∀ (fuel : Nat) (token : String),
    drop (ofToken D E nowTime fuel token) = Chain.ofToken D E nowTime fuel token
  | 0, token => rfl
  | fuel + 1, token => by
    unfold ofToken Chain.ofToken
    rw [drop_bind, drop_lift, forget_fromStr]
    congr 1
    funext u
    unfold fromUcanWith Chain.fromUcanWith
    rw [drop_bind, drop_validate]
    congr 1
    funext _
    rw [drop_bind, drop_proofsLoop D E _ _ (drop_ofToken D E nowTime fuel)]
    congr 1
    funext proofs
    rw [drop_bind, drop_lift, redelegations, forget_redelLoop]
    rfl

end Told

/-- C119: the texts change nothing: the same tokens are accepted, with the same chain, the others refused for the same reason, and the same state is left. -/
theorem C119_same (D : Deps) (E : Env) (nowTime : Option UInt64) (fuel : Nat) (token : String) (w : World) :
    (ofToken D E nowTime fuel token w).2 = (Chain.ofToken D E nowTime fuel token w).2 ∧
    (∀ c, (ofToken D E nowTime fuel token w).1 = .ok c ↔ (Chain.ofToken D E nowTime fuel token w).1 = .ok c) ∧
    ∀ f, (∃ m, (ofToken D E nowTime fuel token w).1 = .error ⟨f, m⟩) ↔ (Chain.ofToken D E nowTime fuel token w).1 = .error f := by
  have h := congrFun (drop_ofToken D E nowTime fuel token) w
  rw [← h]
  unfold drop
  refine ⟨rfl, fun c => ?_, fun f => ?_⟩
  · cases (ofToken D E nowTime fuel token w).1 <;> simp [forget]
  · cases (ofToken D E nowTime fuel token w).1 with
    | ok c => simp [forget]
    | error r =>
      obtain ⟨f', m⟩ := r
      simp [forget]

/-! ## The wording -/

namespace Told

theorem bind_ok {α β : Type} {x : T α} {f : α → T β} {w w' : World} {b : β} (h : (x >>= f) w = (.ok b, w')) :
    ∃ a w1, x w = (.ok a, w1) ∧ f a w1 = (.ok b, w') := by
  change T.bind x f w = _ at h
  unfold T.bind at h
  split at h
  · rename_i a w1 h1; exact ⟨a, w1, h1, h⟩
  · cases h

theorem bind_error {α β : Type} {x : T α} {f : α → T β} {w w' : World} {r : Refusal} (h : (x >>= f) w = (.error r, w')) :
    x w = (.error r, w') ∨ ∃ a w1, x w = (.ok a, w1) ∧ f a w1 = (.error r, w') := by
  change T.bind x f w = _ at h
  unfold T.bind at h
  split at h
  · rename_i a w1 h1; exact .inr ⟨a, w1, h1, h⟩
  · rename_i e w1 h1; cases h; exact .inl h1

/-- The texts of a computation's refusals. -/
def Texts {α : Type} (x : T α) (Q : Err → List Char → Prop) : Prop := ∀ w f m w', x w = (.error ⟨f, some m⟩, w') → ∃ k, f = .err k ∧ Q k m

/-- The texts of a pure computation's refusals. -/
def TextsOf {α : Type} (r : Except Refusal α) (Q : Err → List Char → Prop) : Prop := ∀ f m, r = .error ⟨f, some m⟩ → ∃ k, f = .err k ∧ Q k m

variable {Q : Err → List Char → Prop}

theorem texts_bind {α β : Type} {x : T α} {f : α → T β} (hx : Texts x Q) (hf : ∀ w a w', x w = (.ok a, w') → Texts (f a) Q) : Texts (x >>= f) Q := by
  intro w e m w' h
  rcases bind_error h with h | ⟨a, w1, h1, h⟩
  · exact hx w e m w' h
  · exact hf w a w1 h1 w1 e m w' h

theorem texts_pure {α : Type} (a : α) : Texts (pure a : T α) Q := by
  intro w f m w' h
  cases h

theorem texts_lift {α : Type} {r : Except Refusal α} (h : TextsOf r Q) : Texts (T.lift r) Q := by
  intro w f m w' h'
  exact h f m (congrArg Prod.fst h')

theorem texts_foreign {α : Type} (x : M α) : Texts (T.foreign x) Q := by
  intro w f m w' h
  unfold T.foreign at h
  split at h <;> cases h

theorem textsOf_ok {α : Type} (a : α) : TextsOf (.ok a : Except Refusal α) Q := by
  intro f m h
  cases h

theorem textsOf_says {α : Type} {e : Err} {t : List Char} (h : Q e t) : TextsOf (says e t : Except Refusal α) Q := by
  intro f m h'
  cases h'
  exact ⟨e, rfl, h⟩

theorem textsOf_other {α : Type} (r : Res α) : TextsOf (other r) Q := by
  intro f m h
  cases r <;> cases h

theorem textsOf_ite {α : Type} {c : Prop} [Decidable c] {a b : Except Refusal α} (ha : c → TextsOf a Q) (hb : ¬ c → TextsOf b Q) :
    TextsOf (if c then a else b) Q := by
  split
  · exact ha ‹_›
  · exact hb ‹_›

theorem decimal_of (n : Nat) : DecimalOf n (decimal n) := by
  unfold decimal
  split
  · rename_i h
    subst h
    exact ⟨by decide, by decide, by decide⟩
  · rename_i hn
    have hlt := toDigits_lt (b := 10) (by omega) n
    have hdig : ∀ m : Fin 10, ('0' ≤ Debug.hexChar m.val ∧ Debug.hexChar m.val ≤ '9') ∧ (Debug.hexChar m.val).toNat - 48 = m.val := by decide
    refine ⟨?_, ?_, ?_, ?_⟩
    · intro c hc
      obtain ⟨k, hk, rfl⟩ := List.mem_map.1 hc
      exact (hdig ⟨k, hlt k hk⟩).1
    · have key : ∀ (l : List Nat) (a : Nat), (∀ x ∈ l, x < 10) →
          (l.map Debug.hexChar).foldl (fun a c => a * 10 + (c.toNat - 48)) a = l.foldl (fun a d => a * 10 + d) a := by
        intro l
        induction l with
        | nil => intro a _; rfl
        | cons x l ih =>
          intro a hx
          rw [List.map_cons, List.foldl_cons, List.foldl_cons, (hdig ⟨x, hx x (by simp)⟩).2, ih _ (fun y hy => hx y (by simp [hy]))]
      rw [key _ _ hlt]
      exact ofDigits_toDigits (by omega) n
    · intro e
      exact toDigits_ne_nil (b := 10) (by omega) hn (List.map_eq_nil_iff.1 e)
    · intro e
      cases hd : toDigits 10 n with
      | nil => exact absurd hd (toDigits_ne_nil (by omega) hn)
      | cons d ds =>
        rw [hd] at e
        simp only [List.map_cons, List.head?_cons, Option.some.injEq] at e
        have h0 := toDigits_head (b := 10) (by omega) n d (by rw [hd]; rfl)
        have hl := hlt d (by rw [hd]; simp)
        have : ∀ k : Fin 10, Debug.hexChar k.val = '0' → k.val = 0 := by decide
        exact absurd (this ⟨d, hl⟩ e) h0

variable {D : Deps} {E : Env} {t0 : String}

theorem parse_texts {P : String → Prop} (did : String) (hP : P did) : Texts (parseDid did) (Wording P) := by
  intro w f m w' h
  unfold parseDid at h
  have h1 : (parse w.parser did).1 = .error ⟨f, some m⟩ := congrArg Prod.fst h
  unfold parse at h1
  split at h1
  · split at h1
    · cases h1
    · split at h1
      · cases h1
      · rename_i e he
        change Except.error e = _ at h1
        cases h1
        unfold resolve at he
        split at he
        · cases he
        · split at he
          · split at he
            · exact textsOf_other _ _ _ he
            · exact textsOf_says (.unknownMagic (decimal_of _) (decimal_of _)) _ _ he
          · cases he
  · exact textsOf_says (.notDidKey hP) _ _ h1

theorem validate_texts {P : String → Prop} (u : Ucan) (nowTime : Option UInt64) (hP : P u.payload.iss) : Texts (validate E u nowTime) (Wording P) := by
  unfold validate
  refine texts_bind (texts_foreign _) fun w a w' _ => ?_
  cases a with
  | true => exact texts_lift (textsOf_says .expired)
  | false =>
    refine texts_bind (texts_foreign _) fun w a w' _ => ?_
    cases a with
    | true => exact texts_lift (textsOf_says .tooEarly)
    | false => exact texts_bind (parse_texts _ hP) fun w key w' _ => texts_lift (textsOf_other _)

theorem fromStr_texts {P : String → Prop} (token : String) : TextsOf (fromStr D token) (Wording P) := by
  have key : ∀ {α : Type} (f : Bytes → Option α) (name : String) (part : Bytes) (b j : List Char), Wording P .base64 b → Wording P .json j →
      b = "Could not decode UCAN ".toList ++ name.toList ++ " base64".toList → j = "Could not parse UCAN ".toList ++ name.toList ++ " JSON".toList →
      TextsOf (decodePart f name part) (Wording P) := by
    intro α f name part b j hb hj eb ej
    subst eb; subst ej
    unfold decodePart
    cases Base64.decode part with
    | none => exact textsOf_says hb
    | some x =>
      show TextsOf (match f x with | none => _ | some a => _) _
      cases f x with
      | none => exact textsOf_says hj
      | some a => exact textsOf_ok a
  unfold fromStr ofBytes
  simp only
  cases hs : splitByte 46 (strBytes token) with
  | nil =>
    exfalso
    cases hb : strBytes token with
    | nil => rw [hb] at hs; simp [splitByte] at hs
    | cons x xs =>
      rw [hb] at hs
      unfold splitByte at hs
      split at hs
      · cases hs
      · split at hs <;> cases hs
  | cons p0 rest =>
    simp only
    have h0 := key (Codec.headerOfBytes D) "header" p0 _ _ .headerBase64 .headerJson (by decide +kernel) (by decide +kernel)
    cases hd : decodePart (Codec.headerOfBytes D) "header" p0 with
    | error e => rw [hd] at h0; intro f m h; cases h; exact h0 _ _ rfl
    | ok header =>
      cases rest with
      | nil => exact textsOf_says .noPayload
      | cons p1 rest =>
        simp only
        have h1 := key (Codec.payloadOfBytes D) "payload" p1 _ _ .payloadBase64 .payloadJson (by decide +kernel) (by decide +kernel)
        cases hd1 : decodePart (Codec.payloadOfBytes D) "payload" p1 with
        | error e => rw [hd1] at h1; intro f m h; cases h; exact h1 _ _ rfl
        | ok payload =>
          cases rest with
          | nil => exact textsOf_says .noSignature
          | cons p2 rest =>
            simp only
            cases Base64.decode p2 with
            | none => exact textsOf_says .signatureBase64
            | some sg => exact textsOf_ok _

theorem hex_wording {P : String → Prop} (n : Nat) : Wording P .wrongCodec ("Only 'raw' codec supported, but CID refers to ".toList ++ hex n) := by
  unfold hex
  rw [← List.append_assoc]
  have : "Only 'raw' codec supported, but CID refers to ".toList ++ "0x".toList = "Only 'raw' codec supported, but CID refers to 0x".toList := by decide +kernel
  rw [this]
  split
  · rename_i h; exact .wrongCodec (.inl ⟨h, rfl⟩)
  · rename_i h; exact .wrongCodec (.inr (Debug.hex_of h))

theorem require_texts {P : String → Prop} (c : Cid) : Texts (requireToken E c) (Wording P) := by
  unfold requireToken
  refine texts_bind ?_ ?_
  · unfold readToken
    split
    · exact texts_lift (textsOf_says (hex_wording _))
    · refine texts_bind (texts_foreign _) fun w r w' _ => texts_bind (texts_lift ?_) fun w s w' _ => texts_pure _
      rcases r with _ | r
      · exact textsOf_says .noToken
      · cases r <;> first | exact textsOf_other _ | exact textsOf_says .noToken
  · intro w o w' h
    cases o with
    | some s => exact texts_pure _
    | none =>
      exfalso
      unfold readToken at h
      split at h
      · cases congrArg Prod.fst h
      · obtain ⟨r, w1, _, h⟩ := bind_ok h
        obtain ⟨s, w2, _, h⟩ := bind_ok h
        cases h

theorem require_offered {c : Cid} {w w' : World} {t : String} (h : requireToken E c w = (.ok t, w')) (t0 : String) : Offered E t0 t := by
  unfold requireToken at h
  obtain ⟨o, w1, h1, h2⟩ := bind_ok h
  unfold readToken at h1
  split at h1
  · cases congrArg Prod.fst h1
  · obtain ⟨r, w2, hr, h1⟩ := bind_ok h1
    obtain ⟨s, w3, hs, h1⟩ := bind_ok h1
    cases h1
    cases h2
    have hr' : E.read w.tick c = .ok r := by
      unfold T.foreign at hr
      split at hr
      · rename_i a w'' e
        cases hr
        exact congrArg Prod.fst e
      · cases hr
    have hs' : tokenOf c r = .ok t := congrArg Prod.fst hs
    rcases r with _ | r
    · cases hs'
    · cases r <;> try (cases hs'; done)
      rename_i b
      refine .inr ⟨w.tick, c, b, hr', ?_⟩
      unfold tokenOf at hs'
      cases hb : bytesStr? b with
      | none => simp [hb, orErr, other] at hs'
      | some s =>
        simp [hb, orErr, other] at hs'
        rw [hs']

theorem ofToken_root {nowTime : Option UInt64} {fuel : Nat} {t : String} {w w' : World} {c : Chain} (h : ofToken D E nowTime fuel t w = (.ok c, w')) :
    Ucan.fromStr D t = .ok c.ucan := by
  cases fuel with
  | zero => cases congrArg Prod.fst h
  | succ fuel =>
    unfold ofToken at h
    obtain ⟨u, w1, h1, h⟩ := bind_ok h
    unfold fromUcanWith at h
    obtain ⟨_, w2, _, h⟩ := bind_ok h
    obtain ⟨ps, w3, _, h⟩ := bind_ok h
    obtain ⟨r, w4, _, h⟩ := bind_ok h
    cases h
    have hu : fromStr D t = .ok u := congrArg Prod.fst h1
    rw [← forget_fromStr, hu]
    rfl

theorem redel_texts {P : String → Prop} (n : Nat) : ∀ (l : List (View ProofSelection ProofAction)) (acc : BSet Nat), TextsOf (redelLoop n acc l) (Wording P)
  | [], acc => textsOf_ok _
  | v :: vs, acc => by
    have h : TextsOf (redelStep n acc v) (Wording P) := by
      unfold redelStep
      rcases v.resource with (_ | _) | _ | _
      · rename_i s
        cases s with
        | all => exact textsOf_ok _
        | index i => exact textsOf_ite (fun _ => textsOf_ok _) fun _ => textsOf_says (.noProofAt (decimal_of i))
      all_goals exact textsOf_ok _
    unfold redelLoop
    cases hs : redelStep n acc v with
    | ok acc' => exact redel_texts n vs acc'
    | error e => rw [hs] at h; intro f m h'; cases h'; exact h _ _ rfl

theorem proofs_texts {nowTime : Option UInt64} {fuel : Nat} {P : String → Prop} (u : Ucan) (hu : P u.payload.iss)
    (ht : ∀ t, Offered E t0 t → Texts (ofToken D E nowTime fuel t) (Wording P))
    (hP : ∀ t v, Offered E t0 t → Ucan.fromStr D t = .ok v → P v.payload.aud) :
    ∀ l, Texts (proofsLoop D E (ofToken D E nowTime fuel) u l) (Wording P)
  | [] => texts_pure _
  | s :: ss => by
    unfold proofsLoop
    refine texts_bind (texts_lift (textsOf_other _)) fun w cid w' _ => texts_bind (require_texts cid) fun w t w' h => ?_
    have ho := require_offered h t0
    refine texts_bind (ht t ho) fun w c w' hc => texts_bind (texts_lift ?_) fun w _ w' _ =>
      texts_bind (proofs_texts u hu ht hP ss) fun w cs w' _ => texts_pure _
    unfold validateLink
    exact textsOf_ite (fun _ => textsOf_ite (fun _ => textsOf_ok _) fun _ => textsOf_says .lifetime) fun _ =>
      textsOf_says (.audience (hP t c.ucan ho (ofToken_root hc)) hu)

theorem ofToken_texts (nowTime : Option UInt64) : ∀ (fuel : Nat) (t : String), Offered E t0 t → Texts (ofToken D E nowTime fuel t) (Wording (PartyTo D E t0))
  | 0, t, _ => by
    intro w f m w' h
    cases congrArg Prod.fst h
  | fuel + 1, t, ho => by
    unfold ofToken
    refine texts_bind (texts_lift (fromStr_texts t)) fun w u w' h => ?_
    have hs : fromStr D t = .ok u := congrArg Prod.fst h
    have hu : Ucan.fromStr D t = .ok u := by rw [← forget_fromStr, hs]; rfl
    have hp : PartyTo D E t0 u.payload.iss := ⟨t, u, ho, hu, .inl rfl⟩
    unfold fromUcanWith
    exact texts_bind (validate_texts u nowTime hp) fun w _ w' _ =>
      texts_bind (proofs_texts u hp (fun t ht => ofToken_texts nowTime fuel t ht) (fun t v ht hv => ⟨t, v, ht, hv, .inr rfl⟩) _) fun w ps w' _ =>
        texts_bind (texts_lift (redel_texts _ _ _)) fun w r w' _ => texts_pure _

end Told

/-- C119: what a refusal says, by its kind. Parties that are named are parties to the token presented or to one that the store answers with. -/
theorem C119_wording (D : Deps) (E : Env) (nowTime : Option UInt64) (fuel : Nat) (token : String) (w : World) (f : Fail) (m : List Char)
    (h : (ofToken D E nowTime fuel token w).1 = .error ⟨f, some m⟩) : ∃ e, f = .err e ∧ Wording (PartyTo D E token) e m :=
  ofToken_texts nowTime fuel token (.inl rfl) w f m (ofToken D E nowTime fuel token w).2 (by rw [← h])

namespace Told

variable {E : Env}

/-- Refusals without text are of other kinds, and what is assumed of the keys stays true. -/
def Quiet {α : Type} (E : Env) (x : T α) : Prop := ∀ w, OwnFailures E w.parser →
  (∀ a w', x w = (.ok a, w') → OwnFailures E w'.parser) ∧ ∀ f w', x w = (.error ⟨f, none⟩, w') → Outside f

theorem quiet_bind {α β : Type} {x : T α} {f : α → T β} (hx : Quiet E x) (hf : ∀ a, Quiet E (f a)) : Quiet E (x >>= f) := by
  intro w hw
  refine ⟨fun b w' h => ?_, fun e w' h => ?_⟩
  · obtain ⟨a, w1, h1, h2⟩ := bind_ok h
    exact (hf a w1 ((hx w hw).1 a w1 h1)).1 b w' h2
  · rcases bind_error h with h | ⟨a, w1, h1, h2⟩
    · exact (hx w hw).2 e w' h
    · exact (hf a w1 ((hx w hw).1 a w1 h1)).2 e w' h2

theorem quiet_pure {α : Type} (a : α) : Quiet E (pure a : T α) := by
  intro w hw
  refine ⟨fun b w' h => ?_, fun e w' h => ?_⟩ <;> cases h
  exact hw

theorem quiet_lift {α : Type} {r : Except Refusal α} (h : ∀ f, r = .error ⟨f, none⟩ → Outside f) : Quiet E (T.lift r) := by
  intro w hw
  refine ⟨fun b w' h' => ?_, fun e w' h' => h e (congrArg Prod.fst h')⟩
  have : w = w' := congrArg Prod.snd h'
  rw [← this]
  exact hw

theorem quiet_says {α : Type} {e : Err} {t : List Char} : Quiet E (T.lift (says e t : Except Refusal α)) := quiet_lift fun f h => by cases h

theorem quiet_other {α : Type} {r : Res α} (h : ∀ f, r = .error f → Outside f) : Quiet E (T.lift (other r)) := by
  refine quiet_lift fun f h' => ?_
  cases r with
  | ok a => cases h'
  | error e => cases h'; exact h _ rfl

theorem quiet_foreign {α : Type} {x : M α} (hp : ∀ w, (x w).2.parser = w.parser) (he : ∀ w f, (x w).1 = .error f → Outside f) : Quiet E (T.foreign x) := by
  intro w hw
  have h2 := hp w
  have h3 := he w
  unfold T.foreign
  split
  · rename_i a w1 h1
    rw [h1] at h2
    refine ⟨fun b w' h => ?_, fun e w' h => ?_⟩ <;> cases h
    simp only at h2
    rw [h2]
    exact hw
  · rename_i e w1 h1
    rw [h1] at h3
    refine ⟨fun b w' h => ?_, fun e w' h => ?_⟩ <;> cases h
    exact h3 _ rfl

theorem parse_quiet (did : String) (w : World) (hw : OwnFailures E w.parser) :
    (∀ key w', parseDid did w = (.ok key, w') → OwnFailures E w'.parser ∧ ∀ m s f, key.verify m s = .error f → Outside f) ∧
    ∀ f w', parseDid did w = (.error ⟨f, none⟩, w') → Outside f := by
  unfold parseDid
  cases hp : parse w.parser did with
  | mk r p =>
    have key : (∀ key, r = .ok key → OwnFailures E p ∧ ∀ m s f, key.verify m s = .error f → Outside f) ∧ ∀ f, r = .error ⟨f, none⟩ → Outside f := by
      unfold parse at hp
      split at hp
      · split at hp
        · rename_i k hk
          cases hp
          refine ⟨fun key h => ?_, fun f h => by cases h⟩
          cases h
          exact ⟨hw, fun m s f => hw.cached _ _ m s f hk⟩
        · split at hp
          · rename_i k hk
            cases hp
            have hv : ∀ m s f, k.verify m s = .error f → Outside f := by
              intro m s f hf
              unfold resolve at hk
              split at hk
              · cases hk
              · split at hk
                · split at hk
                  · rename_i rest _ _ ctor hc
                    refine hw.constructed _ ctor rest k m s f hc ?_ hf
                    cases hr : ctor rest <;> rw [hr] at hk <;> cases hk
                    rfl
                  · cases hk
                · cases hk
            refine ⟨fun key h => ?_, fun f h => by cases h⟩
            cases h
            refine ⟨⟨hw.construct, hw.constructed, fun d key' m s f h1 h2 => ?_, hw.store⟩, hv⟩
            rw [BMap.get?_insert] at h1
            split at h1
            · cases h1; exact hv m s f h2
            · exact hw.cached d key' m s f h1 h2
          · rename_i e he
            cases hp
            refine ⟨fun key h => (by cases h), fun f h => ?_⟩
            cases h
            unfold resolve at he
            split at he
            · cases he; intro e h; revert e h; decide
            · split at he
              · split at he
                · rename_i rest _ _ ctor hc
                  refine hw.construct _ ctor rest f hc ?_
                  cases hr : ctor rest <;> rw [hr] at he <;> cases he
                  rfl
                · cases he
              · cases he; intro e h; revert e h; decide
      · cases hp
        exact ⟨fun key h => (by cases h), fun f h => (by cases h)⟩
    refine ⟨fun k w' h => ?_, fun f w' h => ?_⟩
    · simp only [Prod.mk.injEq] at h
      rw [← h.2]
      exact key.1 k h.1
    · simp only [Prod.mk.injEq] at h
      exact key.2 f h.1

theorem validate_quiet (u : Ucan) (nowTime : Option UInt64) : Quiet E (validate E u nowTime) := by
  have h1 : Quiet E (T.foreign (Ucan.isExpired E u nowTime)) := by
    refine quiet_foreign (fun w => ?_) fun w f h => ?_
    · unfold Ucan.isExpired
      cases u.payload.exp <;> cases nowTime <;> rfl
    · exfalso
      unfold Ucan.isExpired at h
      cases he : u.payload.exp <;> rw [he] at h <;> cases nowTime <;> cases h
  have h2 : Quiet E (T.foreign (Ucan.isTooEarly E u)) := by
    refine quiet_foreign (fun w => ?_) fun w f h => ?_
    · unfold Ucan.isTooEarly
      cases u.payload.nbf <;> rfl
    · exfalso
      unfold Ucan.isTooEarly at h
      cases he : u.payload.nbf <;> rw [he] at h <;> cases h
  unfold validate
  refine quiet_bind h1 fun a => ?_
  cases a with
  | true => exact quiet_says
  | false =>
    refine quiet_bind h2 fun a => ?_
    cases a with
    | true => exact quiet_says
    | false =>
      intro w hw
      have hq := parse_quiet u.payload.iss w hw
      refine ⟨fun b w' h => ?_, fun f w' h => ?_⟩
      · obtain ⟨key, w1, h1, h2⟩ := bind_ok h
        have e : w1 = w' := congrArg Prod.snd h2
        rw [← e]
        exact (hq.1 key w1 h1).1
      · rcases bind_error h with h | ⟨key, w1, h1, h2⟩
        · exact hq.2 f w' h
        · have h3 : other (key.verify u.signedData u.signature) = .error ⟨f, none⟩ := congrArg Prod.fst h2
          refine (hq.1 key w1 h1).2 u.signedData u.signature f ?_
          cases hv : key.verify u.signedData u.signature <;> rw [hv] at h3 <;> cases h3
          rfl

theorem fromStr_quiet {D : Deps} (token : String) : Quiet E (T.lift (fromStr D token)) := by
  refine quiet_lift fun f h => ?_
  exfalso
  have key : ∀ {α : Type} (g : Bytes → Option α) (name : String) (part : Bytes), decodePart g name part ≠ .error ⟨f, none⟩ := by
    intro α g name part h
    unfold decodePart at h
    split at h
    · cases h
    · split at h <;> cases h
  unfold fromStr ofBytes at h
  simp only at h
  split at h
  · cases h
  · split at h
    · rename_i e he
      cases h
      exact key _ _ _ he
    · split at h
      · cases h
      · split at h
        · rename_i e he
          cases h
          exact key _ _ _ he
        · split at h
          · cases h
          · split at h <;> cases h

theorem require_quiet (c : Cid) : Quiet E (requireToken E c) := by
  intro w hw
  revert w
  unfold requireToken
  refine fun w hw => quiet_bind ?_ (fun o => ?_) w hw
  · unfold readToken
    split
    · exact quiet_says
    · refine quiet_bind (quiet_foreign (fun w => rfl) fun w f h => hw.store w.tick c f h) fun r => quiet_bind (quiet_lift fun f h => ?_) fun s => quiet_pure _
      have hu : ∀ b, other (orErr .utf8 (bytesStr? b)) = .error ⟨f, none⟩ → Outside f := by
        intro b h
        cases hb : bytesStr? b <;> rw [hb] at h <;> cases h
        intro e h; revert e h; decide
      rcases r with _ | r
      · cases h
      · cases r <;> first | exact hu _ h | cases h
  · cases o with
    | some s => exact quiet_pure _
    | none => exact quiet_says

theorem redel_quiet (n : Nat) : ∀ (l : List (View ProofSelection ProofAction)) (acc : BSet Nat) (f : Fail), redelLoop n acc l ≠ .error ⟨f, none⟩
  | [], acc, f => by intro h; cases h
  | v :: vs, acc, f => by
    intro h
    unfold redelLoop at h
    split at h
    · exact redel_quiet n vs _ f h
    · rename_i e he
      cases h
      unfold redelStep at he
      split at he
      · cases he
      · split at he <;> cases he
      · cases he

theorem proofs_quiet {D : Deps} {rec : String → T Chain} (hr : ∀ t, Quiet E (rec t)) (u : Ucan) : ∀ l, Quiet E (proofsLoop D E rec u l)
  | [] => quiet_pure _
  | s :: ss => by
    unfold proofsLoop
    refine quiet_bind (quiet_other fun f h => ?_) fun cid => quiet_bind (require_quiet cid) fun t => quiet_bind (hr t) fun c =>
      quiet_bind (quiet_lift fun f h => ?_) fun _ => quiet_bind (proofs_quiet hr u ss) fun cs => quiet_pure _
    · cases hb : Cid.parse D s <;> rw [hb] at h <;> cases h
      intro e h; revert e h; decide
    · exfalso
      unfold validateLink at h
      split at h
      · split at h <;> cases h
      · cases h

theorem ofToken_quiet (D : Deps) (nowTime : Option UInt64) : ∀ (fuel : Nat) (t : String), Quiet E (ofToken D E nowTime fuel t)
  | 0, t => quiet_lift fun f h => by cases h; intro e h; revert e h; decide
  | fuel + 1, t => by
    unfold ofToken
    refine quiet_bind (fromStr_quiet t) fun u => ?_
    unfold fromUcanWith
    exact quiet_bind (validate_quiet u nowTime) fun _ => quiet_bind (proofs_quiet (ofToken_quiet D nowTime fuel) u _) fun ps =>
      quiet_bind (quiet_lift fun f h => absurd h (redel_quiet _ _ _ f)) fun r => quiet_pure _

end Told

/-- C119: a refusal of one of the library's own kinds always has a text, if keys and stores fail in their own ways. -/
theorem C119_worded (D : Deps) (E : Env) (nowTime : Option UInt64) (fuel : Nat) (token : String) (w : World) (ho : OwnFailures E w.parser) (e : Err)
    (he : e ∈ ownKinds) (h : (Chain.ofToken D E nowTime fuel token w).1 = .error (.err e)) :
    ∃ m, (ofToken D E nowTime fuel token w).1 = .error ⟨.err e, some m⟩ ∧ Wording (PartyTo D E token) e m := by
  obtain ⟨m, hm⟩ := ((C119_same D E nowTime fuel token w).2.2 _).2 h
  cases m with
  | none => exact absurd rfl ((ofToken_quiet D nowTime fuel token w ho).2 (.err e) (ofToken D E nowTime fuel token w).2 (by rw [← hm]) e he)
  | some m =>
    obtain ⟨e', he', hw⟩ := C119_wording D E nowTime fuel token w _ m hm
    cases he'
    exact ⟨m, hm, hw⟩

namespace Told

/-- The kind of refusal, from its text. -/
def kindOf (m : List Char) : Option Err :=
  if m.take 6 = "Expire".toList then some .expired
  else if m.take 6 = "Not ac".toList then some .tooEarly
  else if m.take 6 = "Expect".toList then some .notDidKey
  else if m.take 6 = "Unreco".toList then some .unknownMagic
  else if m.take 6 = "Missin".toList then some .missingPart
  else if m.take 6 = "Only '".toList then some .wrongCodec
  else if m.take 6 = "No UCA".toList then some .noToken
  else if m.take 6 = "Unable".toList then some .noProofAt
  else if m.take 20 = "Invalid UCAN link: l".toList then some .lifetime
  else if m.take 20 = "Invalid UCAN link: a".toList then some .audience
  else if m.drop (m.length - 4) = "JSON".toList then some .json
  else some .base64

theorem take_lit {n : Nat} {a : List Char} (x : List Char) (h : n ≤ a.length) : (a ++ x).take n = a.take n := by
  rw [List.take_append_of_le_length h]

theorem kind_of_wording {P : String → Prop} {e : Err} {m : List Char} (h : Wording P e m) : kindOf m = some e := by
  cases h with
  | expired | tooEarly | headerBase64 | payloadBase64 | signatureBase64 | headerJson | payloadJson | noPayload | noSignature | lifetime => decide +kernel
  | notDidKey _ =>
    unfold kindOf
    rw [take_lit _ (by decide +kernel)]
    rw [if_neg (by decide +kernel), if_neg (by decide +kernel), if_pos (by decide +kernel)]
  | unknownMagic _ _ =>
    unfold kindOf
    simp only [List.append_assoc]
    rw [take_lit _ (by decide +kernel)]
    rw [if_neg (by decide +kernel), if_neg (by decide +kernel), if_neg (by decide +kernel), if_pos (by decide +kernel)]
  | wrongCodec _ =>
    unfold kindOf
    rw [take_lit _ (by decide +kernel)]
    rw [if_neg (by decide +kernel), if_neg (by decide +kernel), if_neg (by decide +kernel), if_neg (by decide +kernel), if_neg (by decide +kernel),
      if_pos (by decide +kernel)]
  | noToken =>
    unfold kindOf
    simp only [List.append_assoc]
    rw [take_lit _ (by decide +kernel)]
    rw [if_neg (by decide +kernel), if_neg (by decide +kernel), if_neg (by decide +kernel), if_neg (by decide +kernel), if_neg (by decide +kernel),
      if_neg (by decide +kernel), if_pos (by decide +kernel)]
  | noProofAt _ =>
    unfold kindOf
    rw [take_lit _ (by decide +kernel)]
    rw [if_neg (by decide +kernel), if_neg (by decide +kernel), if_neg (by decide +kernel), if_neg (by decide +kernel), if_neg (by decide +kernel),
      if_neg (by decide +kernel), if_neg (by decide +kernel), if_pos (by decide +kernel)]
  | audience _ _ =>
    unfold kindOf
    simp only [List.append_assoc]
    rw [take_lit _ (by decide +kernel), take_lit _ (by decide +kernel)]
    rw [if_neg (by decide +kernel), if_neg (by decide +kernel), if_neg (by decide +kernel), if_neg (by decide +kernel), if_neg (by decide +kernel),
      if_neg (by decide +kernel), if_neg (by decide +kernel), if_neg (by decide +kernel), if_neg (by decide +kernel), if_pos (by decide +kernel)]

end Told

/-- C119: whoever is named, the text tells the kind of the refusal. -/
theorem C119_kind (P P' : String → Prop) (e e' : Err) (m : List Char) (h : Wording P e m) (h' : Wording P' e' m) : e = e' := by
  have := (kind_of_wording h).symm.trans (kind_of_wording h')
  exact Option.some.inj this

/-! ## One line -/

namespace Told

theorem decimal_line (pr : Char → Bool) {n : Nat} {l : List Char} (h : DecimalOf n l) : OneLine pr l := by
  refine .ascii (List.all_eq_true.2 fun c hc => decide_eq_true ?_)
  have := h.digits c hc
  have h1 : '0'.toNat ≤ c.toNat := this.1
  have h2 : c.toNat ≤ '9'.toNat := this.2
  exact ⟨Nat.le_trans (by decide) h1, Nat.lt_of_le_of_lt h2 (by decide)⟩

theorem hex_line (pr : Char → Bool) {n : Nat} {l : List Char} (h : HexOf n l) : OneLine pr l := by
  refine .ascii (List.all_eq_true.2 fun c hc => decide_eq_true ?_)
  rcases h.digits c hc with ⟨h1, h2⟩ | ⟨h1, h2⟩
  · have h1 : '0'.toNat ≤ c.toNat := h1
    have h2 : c.toNat ≤ '9'.toNat := h2
    exact ⟨Nat.le_trans (by decide) h1, Nat.lt_of_le_of_lt h2 (by decide)⟩
  · have h1 : 'a'.toNat ≤ c.toNat := h1
    have h2 : c.toNat ≤ 'f'.toNat := h2
    exact ⟨Nat.le_trans (by decide) h1, Nat.lt_of_le_of_lt h2 (by decide)⟩

theorem cid_line (pr : Char → Bool) (c : Cid) : OneLine pr c.toStr.toList := by
  have hb : ∀ x ∈ c.toStrBytes, 32 ≤ x.toNat ∧ x.toNat < 127 := by
    have h32 : ∀ q : Fin 32, 32 ≤ (Base32.quintChar q.val).toNat ∧ (Base32.quintChar q.val).toNat < 127 := by decide
    have h58 : ∀ q : Fin 58, 32 ≤ (Base58.digitChar q.val).toNat ∧ (Base58.digitChar q.val).toNat < 127 := by decide
    intro x hx
    unfold Cid.toStrBytes at hx
    split at hx
    · rcases List.mem_cons.1 hx with rfl | hx
      · decide
      · rw [Base32.encode_eq_pack] at hx
        obtain ⟨q, hq, rfl⟩ := List.mem_map.1 hx
        exact h32 ⟨q, Base32.pack_lt _ q hq⟩
    · unfold Base58.encode at hx
      rcases List.mem_append.1 hx with hx | hx
      · have := List.eq_of_mem_replicate hx
        subst this; decide
      · obtain ⟨d, hd, rfl⟩ := List.mem_map.1 hx
        exact h58 ⟨d, toDigits_lt (by omega) _ d hd⟩
  refine .ascii (List.all_eq_true.2 fun ch hch => decide_eq_true ?_)
  unfold Cid.toStr asciiStr at hch
  rw [String.toList_ofList] at hch
  obtain ⟨x, hx, rfl⟩ := List.mem_map.1 hch
  have := hb x hx
  have e : ∀ y : UInt8, 32 ≤ y.toNat ∧ y.toNat < 127 → 32 ≤ (Char.ofNat y.toNat).toNat ∧ (Char.ofNat y.toNat).toNat < 127 :=
    forall_uint8 (P := fun y => 32 ≤ y.toNat ∧ y.toNat < 127 → 32 ≤ (Char.ofNat y.toNat).toNat ∧ (Char.ofNat y.toNat).toNat < 127) (by decide +kernel)
  exact e x this

theorem wording_line {pr : Char → Bool} {P : String → Prop} (hP : ∀ s, P s → OneLine pr s.toList) {e : Err} {m : List Char} (h : Wording P e m) :
    OneLine pr m := by
  cases h with
  | expired | tooEarly | headerBase64 | payloadBase64 | signatureBase64 | headerJson | payloadJson | noPayload | noSignature | lifetime =>
    exact .ascii (by decide +kernel)
  | notDidKey hs => exact .append (.ascii (by decide +kernel)) (hP _ hs)
  | unknownMagic h1 h2 =>
    exact .append (.append (.append (.append (.ascii (by decide +kernel)) (decimal_line pr h1)) (.ascii (by decide +kernel))) (decimal_line pr h2))
      (.ascii (by decide +kernel))
  | wrongCodec h =>
    refine .append (.ascii (by decide +kernel)) ?_
    rcases h with ⟨_, rfl⟩ | h
    · exact .ascii (by decide +kernel)
    · exact hex_line pr h
  | noToken => exact .append (.append (.ascii (by decide +kernel)) (cid_line pr _)) (.ascii (by decide +kernel))
  | noProofAt h => exact .append (.ascii (by decide +kernel)) (decimal_line pr h)
  | audience h1 h2 => exact .append (.append (.append (.ascii (by decide +kernel)) (hP _ h1)) (.ascii (by decide +kernel))) (hP _ h2)

end Told

/-- C119 (partial): a text that is more than one line repeats a party that is: if no party to the token presented, nor to any that the store answers with,
has a control character in its DID, then every text is one line. In full it is refuted by `C119_forged`. -/
theorem C119_line_partial (D : Deps) (E : Env) (nowTime : Option UInt64) (fuel : Nat) (token : String) (w : World) (pr : Char → Bool)
    (hp : ∀ s, PartyTo D E token s → OneLine pr s.toList) (f : Fail) (m : List Char)
    (h : (ofToken D E nowTime fuel token w).1 = .error ⟨f, some m⟩) : OneLine pr m := by
  obtain ⟨e, _, hw⟩ := C119_wording D E nowTime fuel token w f m h
  exact wording_line hp hw

/-! ## The violation -/

namespace Told

theorem run_ok {α β : Type} {x : T α} {f : α → T β} {w w' : World} {a : α} (h : x w = (.ok a, w')) : (x >>= f) w = f a w' := by
  show T.bind x f w = _
  unfold T.bind
  rw [h]

theorem run_error {α β : Type} {x : T α} {f : α → T β} {w w' : World} {r : Refusal} (h : x w = (.error r, w')) : (x >>= f) w = (.error r, w') := by
  show T.bind x f w = _
  unfold T.bind
  rw [h]

end Told

/-- C119 is violated: whatever text one likes, there is a token, signed by nobody, that every service refuses with that text as the last lines of what it says. -/
theorem C119_forged (D : Deps) (E : Env) (nowTime : Option UInt64) (fuel : Nat) (w : World) (s : String) : ∃ token,
    ofToken D E nowTime (fuel + 1) token w = (.error ⟨.err .notDidKey, some ("Expected valid did:key, got: \n".toList ++ s.toList)⟩, w) := by
  let p : Payload := ⟨ucanVersion, "\n" ++ s, "", none, none, none, Ex.caps "a:b" "c", none, none⟩
  let u : Ucan := ⟨⟨"EdDSA", "JWT"⟩, p, Ucan.signingInput D ⟨"EdDSA", "JWT"⟩ p, []⟩
  have he : Codec.Encodable D p := by
    have h := Ex.encodable D 0 "" none none none "a:b" "c"
    refine ⟨h.capSorted, h.abSorted, h.caveats, fun f hf => (by cases hf), ?_⟩
    have := Codec.depth_payload (n := 10) p (by
      intro r hr a ha c hc
      simp only [p, Ex.caps, List.mem_singleton] at hr
      subst hr
      simp only [List.mem_singleton] at ha
      subst ha
      simp only [List.mem_singleton] at hc
      subst hc
      decide) (by omega) (fun f hf => by cases hf)
    simp only [Json.depthLimit]
    omega
  have hf := C01_round_trip_general D u he rfl
  refine ⟨u.encode D, ?_⟩
  have hs : fromStr D (u.encode D) = .ok u := by
    have := forget_fromStr D (u.encode D)
    rw [hf] at this
    cases h : fromStr D (u.encode D) <;> rw [h] at this <;> cases this
    rfl
  have hn : Did.didKeyPrefix.isPrefixOf (strBytes ("\n" ++ s)) = false := by
    rw [strBytes_append]
    have : strBytes "\n" = [10] := by decide +kernel
    rw [this]
    rfl
  have hpd : Told.parseDid u.payload.iss w = (.error ⟨.err .notDidKey, some ("Expected valid did:key, got: \n".toList ++ s.toList)⟩, w) := by
    show Told.parseDid ("\n" ++ s) w = _
    unfold Told.parseDid Told.parse
    rw [hn]
    simp only [Bool.false_eq_true, if_false, says]
    rw [String.toList_append, ← List.append_assoc]
    have : "Expected valid did:key, got: ".toList ++ "\n".toList = "Expected valid did:key, got: \n".toList := by decide +kernel
    rw [this]
  have hx : Ucan.isExpired E u nowTime w = (.ok false, w) := rfl
  have hy : Ucan.isTooEarly E u w = (.ok false, w) := rfl
  have hv : validate E u nowTime w = (.error ⟨.err .notDidKey, some ("Expected valid did:key, got: \n".toList ++ s.toList)⟩, w) := by
    unfold validate
    rw [run_ok (w' := w) (a := false) (by unfold T.foreign; rw [hx])]
    simp only [Bool.false_eq_true, if_false]
    rw [run_ok (w' := w) (a := false) (by unfold T.foreign; rw [hy])]
    simp only [Bool.false_eq_true, if_false]
    exact run_error hpd
  unfold ofToken
  rw [run_ok (w' := w) (a := u) (by unfold T.lift; rw [hs])]
  unfold fromUcanWith
  exact run_error hv

/-- C119 is violated further: the same text is said about different links. -/
theorem C119_ambiguous : ∃ a b a' b' : Ucan, a.audience ≠ a'.audience ∧ b.issuer ≠ b'.issuer ∧ ∃ m,
    validateLink a b = .error ⟨.err .audience, some m⟩ ∧ validateLink a' b' = .error ⟨.err .audience, some m⟩ := by
  let party (iss aud : String) : Ucan := ⟨⟨"", ""⟩, ⟨"", iss, aud, none, none, none, [], none, none⟩, [], []⟩
  refine ⟨party "" "x", party "y does not match issuer z" "", party "" "x does not match issuer y", party "z" "", by decide +kernel, by decide +kernel, _, rfl, ?_⟩
  have e : "Invalid UCAN link: audience ".toList ++ "x does not match issuer y".toList ++ " does not match issuer ".toList ++ "z".toList =
      "Invalid UCAN link: audience ".toList ++ "x".toList ++ " does not match issuer ".toList ++ "y does not match issuer z".toList := by decide +kernel
  show (if "x does not match issuer y" = "z" then _ else says .audience _) = _
  rw [if_neg (by decide +kernel)]
  exact congrArg (fun l => Except.error (Refusal.mk (.err .audience) (some l))) e

/-! ## Concrete cases -/

/-- A token that is refused in words (hypothesis of `C119_wording` and `C119_line_partial`). -/
example (D : Deps) (E : Env) (nowTime : Option UInt64) (w : World) :
    (ofToken D E nowTime 1 "*" w).1 = .error ⟨.err .base64, some "Could not decode UCAN header base64".toList⟩ := by
  have h : Base64.decode (strBytes "*") = none := by decide +kernel
  have hp : splitByte 46 (strBytes "*") = [strBytes "*"] := by decide +kernel
  unfold ofToken
  rw [run_error (w' := w) (r := ⟨.err .base64, some "Could not decode UCAN header base64".toList⟩)]
  unfold T.lift fromStr ofBytes
  rw [hp]
  simp only [decodePart, h, says]
  congr 3

/-- A log that cannot be told from two refusals. -/
example (D : Deps) (E : Env) (w : World) : ∃ token, (ofToken D E none 1 token w).1 =
    .error ⟨.err .notDidKey, some "Expected valid did:key, got: \nInvalid UCAN link: lifetime exceeds attenuation".toList⟩ := by
  obtain ⟨token, h⟩ := C119_forged D E none 0 w "Invalid UCAN link: lifetime exceeds attenuation"
  refine ⟨token, ?_⟩
  rw [h]
  congr 3

/-- Keys that fail only in their own way, and a store that never fails (hypothesis of `C119_worded`). -/
example (now : Nat → UInt64) : OwnFailures ⟨now, fun _ _ => .ok none⟩ ⟨[([1], fun b => if b = [] then .error (.err .keyCtor) else .error (.err .badSignature))], []⟩ := by
  refine ⟨fun magic ctor b f h1 h2 => ?_, fun magic ctor b key m s f h1 h2 => ?_, fun did key m s f h => (by cases h), fun n c f h => (by cases h)⟩
  · simp only [BMap.get?] at h1
    split at h1
    · cases h1
      intro e he
      dsimp only at h2
      split at h2 <;> cases h2 <;> intro hh <;> cases hh <;> revert he <;> decide
    · cases h1
  · simp only [BMap.get?] at h1
    split at h1
    · cases h1
      dsimp only at h2
      split at h2 <;> cases h2
    · cases h1

end Verif
