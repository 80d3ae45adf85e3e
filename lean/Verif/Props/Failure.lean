import Verif.Props.ChainExamples
import Verif.Spec.Failure

/-!
# Failures

C79: which failure a defective token, or a token with a defective proof tree, is reported with.
-/

namespace Verif
open Spec

/-! ## Texts that are no tokens -/

namespace Failure

theorem noBase64_iff {s : Bytes} : NoBase64 s ↔ Base64.decode s = none := by
  constructor
  · intro h
    cases hd : Base64.decode s with
    | none => rfl
    | some b => exact absurd (Base64.encode_of_decode hd).symm (h b)
  · rintro h b rfl
    rw [Base64.decode_encode] at h; cases h

theorem documented_iff {α : Type} {f : Bytes → Option α} {s : Bytes} : Documented f s ↔ ∃ v, Ucan.decodePart f s = .ok v := by
  constructor
  · rintro ⟨b, v, h⟩; exact ⟨v, Ucan.decodePart_ok.2 ⟨b, h⟩⟩
  · rintro ⟨v, h⟩
    obtain ⟨b, h⟩ := Ucan.decodePart_ok.1 h
    exact ⟨b, v, h⟩

theorem decodePart_error {α : Type} {f : Bytes → Option α} {s : Bytes} {x : Fail} :
    Ucan.decodePart f s = .error x ↔ (x = .err .base64 ∧ NoBase64 s) ∨ (x = .err .json ∧ Undocumented f s) := by
  unfold Ucan.decodePart
  constructor
  · intro h
    split at h
    · rename_i hd; cases h; exact Or.inl ⟨rfl, noBase64_iff.2 hd⟩
    · rename_i b hd
      refine Or.inr ?_
      cases hf : f b with
      | some v => rw [hf] at h; cases h
      | none => rw [hf] at h; cases h; exact ⟨rfl, b, (Base64.encode_of_decode hd).symm, hf⟩
  · rintro (⟨rfl, h⟩ | ⟨rfl, b, rfl, h⟩)
    · rw [noBase64_iff.1 h]
    · rw [Base64.decode_encode]; simp only [h]; rfl

/-- The first segment of a text. -/
theorem first {h tail : Bytes} (hn : NoDot h) (ht : Tail tail) : ∃ rest, splitByte 46 (h ++ tail) = h :: rest := by
  rcases ht with rfl | ⟨r, rfl⟩
  · rw [List.append_nil, splitByte_of_not_mem hn]; exact ⟨[], rfl⟩
  · rw [splitByte_append hn]; exact ⟨_, rfl⟩

/-- Parsing fails exactly on the texts that are no tokens, with the error of the first segment at fault. -/
theorem text_iff (D : Deps) (t : String) (x : Fail) : Ucan.fromStr D t = .error x ↔ ∃ e, x = .err e ∧ TextFault D (strBytes t) e := by
  unfold Ucan.fromStr
  generalize strBytes t = b
  constructor
  · intro h
    unfold Ucan.ofBytes at h
    simp only at h
    have c0 := splitByte_cases 46 b
    split at h
    · rename_i hs; exact absurd hs (splitByte_ne_nil _ _)
    · rename_i p0 rest hs
      have hh : ∃ tail, b = p0 ++ tail ∧ NoDot p0 ∧ Tail tail := by
        rcases c0 with ⟨h1, h2⟩ | ⟨a, r, h1, h2, h3⟩
        · rw [h2] at hs; cases hs; exact ⟨[], by simp, h1, Or.inl rfl⟩
        · rw [h3] at hs; cases hs; exact ⟨_, h2, h1, Or.inr ⟨r, rfl⟩⟩
      split at h
      · rename_i e he
        cases h
        obtain ⟨tail, rfl, hn, ht⟩ := hh
        rcases decodePart_error.1 he with ⟨rfl, h⟩ | ⟨rfl, h⟩
        · exact ⟨_, rfl, .header64 hn ht h⟩
        · exact ⟨_, rfl, .header hn ht h⟩
      · rename_i header hhd
        have hdoc := documented_iff.2 ⟨_, hhd⟩
        split at h
        · cases h
          rcases c0 with ⟨h1, h2⟩ | ⟨a, r, h1, h2, h3⟩
          · rw [h2] at hs; cases hs; exact ⟨_, rfl, .noPayload h1 hdoc⟩
          · rw [h3] at hs
            injection hs with _ hs
            exact absurd hs (splitByte_ne_nil _ _)
        · rename_i p1 rest1
          rcases c0 with ⟨h1, h2⟩ | ⟨a, r, h1, rfl, h3⟩
          · rw [h2] at hs; cases hs
          rw [h3] at hs
          injection hs with e1 hs
          subst e1
          have c1 := splitByte_cases 46 r
          have hp : ∃ tail, r = p1 ++ tail ∧ NoDot p1 ∧ Tail tail := by
            rcases c1 with ⟨h1, h2⟩ | ⟨a, r, h1, h2, h3⟩
            · rw [h2] at hs; cases hs; exact ⟨[], by simp, h1, Or.inl rfl⟩
            · rw [h3] at hs; cases hs; exact ⟨_, h2, h1, Or.inr ⟨r, rfl⟩⟩
          split at h
          · rename_i e he
            cases h
            obtain ⟨tail, rfl, hn, ht⟩ := hp
            have e : a ++ 46 :: (p1 ++ tail) = a ++ 46 :: p1 ++ tail := by simp
            rw [e]
            rcases decodePart_error.1 he with ⟨rfl, h⟩ | ⟨rfl, h⟩
            · exact ⟨_, rfl, .payload64 h1 hn ht hdoc h⟩
            · exact ⟨_, rfl, .payload h1 hn ht hdoc h⟩
          · rename_i payload hpd
            have pdoc := documented_iff.2 ⟨_, hpd⟩
            split at h
            · cases h
              rcases c1 with ⟨h1', h2⟩ | ⟨a', r', h1', h2, h3'⟩
              · rw [h2] at hs; cases hs; exact ⟨_, rfl, .noSignature h1 h1' hdoc pdoc⟩
              · rw [h3'] at hs
                injection hs with _ hs
                exact absurd hs (splitByte_ne_nil _ _)
            · rename_i p2 rest2
              rcases c1 with ⟨h1', h2⟩ | ⟨a', r', h1', rfl, h3'⟩
              · rw [h2] at hs; cases hs
              rw [h3'] at hs
              injection hs with e1 hs
              subst e1
              have hq : ∃ tail, r' = p2 ++ tail ∧ NoDot p2 ∧ Tail tail := by
                rcases splitByte_cases 46 r' with ⟨h1, h2⟩ | ⟨a, r, h1, h2, h3⟩
                · rw [h2] at hs; cases hs; exact ⟨[], by simp, h1, Or.inl rfl⟩
                · rw [h3] at hs; cases hs; exact ⟨_, h2, h1, Or.inr ⟨r, rfl⟩⟩
              split at h
              · rename_i hd
                cases h
                obtain ⟨tail, rfl, hn, ht⟩ := hq
                have e : a ++ 46 :: (a' ++ 46 :: (p2 ++ tail)) = a ++ 46 :: a' ++ 46 :: p2 ++ tail := by simp
                rw [e]
                exact ⟨_, rfl, .signature64 h1 h1' hn ht hdoc pdoc (noBase64_iff.2 hd)⟩
              · cases h
  · rintro ⟨e, rfl, h⟩
    unfold Ucan.ofBytes
    cases h with
    | header64 hn ht hb =>
      obtain ⟨rest, hs⟩ := first hn ht
      simp only [hs, decodePart_error.2 (Or.inl ⟨rfl, hb⟩)]
    | header hn ht hb =>
      obtain ⟨rest, hs⟩ := first hn ht
      simp only [hs, decodePart_error.2 (Or.inr ⟨rfl, hb⟩)]
    | noPayload hn hd =>
      obtain ⟨v, hv⟩ := documented_iff.1 hd
      simp only [splitByte_of_not_mem hn, hv]
    | payload64 hn hp ht hd hb =>
      obtain ⟨v, hv⟩ := documented_iff.1 hd
      obtain ⟨rest, hs⟩ := first hp ht
      simp only [List.append_assoc, List.cons_append, splitByte_append hn, hs, hv, decodePart_error.2 (Or.inl ⟨rfl, hb⟩)]
    | payload hn hp ht hd hb =>
      obtain ⟨v, hv⟩ := documented_iff.1 hd
      obtain ⟨rest, hs⟩ := first hp ht
      simp only [List.append_assoc, List.cons_append, splitByte_append hn, hs, hv, decodePart_error.2 (Or.inr ⟨rfl, hb⟩)]
    | noSignature hn hp hd hd' =>
      obtain ⟨v, hv⟩ := documented_iff.1 hd
      obtain ⟨v', hv'⟩ := documented_iff.1 hd'
      simp only [splitByte_append hn, splitByte_of_not_mem hp, hv, hv']
    | signature64 hn hp hs' ht hd hd' hb =>
      obtain ⟨v, hv⟩ := documented_iff.1 hd
      obtain ⟨v', hv'⟩ := documented_iff.1 hd'
      obtain ⟨rest, hs⟩ := first hs' ht
      simp only [List.append_assoc, List.cons_append, splitByte_append hn, splitByte_append hp, hs, hv, hv', noBase64_iff.1 hb]

/-! ## Keys and validity -/

/-- The parser fails exactly on the DIDs without key, with that failure, whatever it was asked before. -/
theorem did_iff {p : DidParser} (hp : Coherent p) (did : String) (f : Fail) : (p.parse did).1 = .error f ↔ DidFault p.ctors did f := by
  rw [DidParser.parse_eq_fresh hp]
  unfold DidParser.parse
  constructor
  · intro h
    split at h
    · rename_i hpre
      obtain ⟨t, ht⟩ := DidParser.isPrefixOf_iff.1 hpre
      have ht' := ht
      rw [DidParser.didKeyPrefix_eq] at ht'
      simp only [BMap.get?] at h
      split at h
      · cases h
      · rename_i e he
        cases h
        unfold DidParser.resolve at he
        rw [ht, List.drop_left] at he
        split at he
        · rename_i hd
          cases he
          refine .base58 t ht' (fun b hb => ?_)
          rw [hb, Base58.decode_encode] at hd; cases hd
        · rename_i b hb
          have hbe := Base58.encode_of_decode hb
          subst hbe
          split at he
          · rename_i b0 b1 r
            split at he
            · rename_i ctor hc
              exact .refused b0 b1 r ctor _ ht' hc he
            · rename_i hc
              cases he
              exact .unknown b0 b1 r ht' hc
          · rename_i hshort
            cases he
            refine .short b ht' ?_
            match b, hshort with
            | [], _ => decide
            | [_], _ => simp
            | b0 :: b1 :: r, hs => exact absurd rfl (hs b0 b1 r)
    · rename_i hpre
      cases h
      refine .notKey (fun t ht => hpre (DidParser.isPrefixOf_iff.2 ⟨t, ?_⟩))
      rw [ht, DidParser.didKeyPrefix_eq]
  · have go : ∀ b, strBytes did = strBytes "did:key:z" ++ Base58.encode b → Did.didKeyPrefix.isPrefixOf (strBytes did) = true ∧
        Base58.decode ((strBytes did).drop Did.didKeyPrefix.length) = some b := by
      intro b hb
      rw [← DidParser.didKeyPrefix_eq] at hb
      exact ⟨DidParser.isPrefixOf_iff.2 ⟨_, hb⟩, by rw [hb, List.drop_left, Base58.decode_encode]⟩
    intro h
    cases h with
    | notKey h =>
      rw [if_neg]
      intro hpre
      obtain ⟨t, ht⟩ := DidParser.isPrefixOf_iff.1 hpre
      exact h t (by rw [ht, DidParser.didKeyPrefix_eq])
    | base58 t ht hb =>
      rw [← DidParser.didKeyPrefix_eq] at ht
      rw [if_pos (DidParser.isPrefixOf_iff.2 ⟨_, ht⟩)]
      have : Base58.decode t = none := by
        cases hd : Base58.decode t with
        | none => rfl
        | some b => exact absurd (Base58.encode_of_decode hd).symm (hb b)
      simp only [BMap.get?, DidParser.resolve, ht, List.drop_left, this]
    | short b hb hl =>
      obtain ⟨h1, h2⟩ := go b hb
      rw [if_pos h1]
      simp only [BMap.get?, DidParser.resolve, h2]
      match b, hl with
      | [], _ => rfl
      | [_], _ => rfl
    | unknown b0 b1 r hb hg =>
      obtain ⟨h1, h2⟩ := go _ hb
      rw [if_pos h1]
      simp only [BMap.get?, DidParser.resolve, h2, hg]
    | refused b0 b1 r ctor _ hb hg hc =>
      obtain ⟨h1, h2⟩ := go _ hb
      rw [if_pos h1]
      simp only [BMap.get?, DidParser.resolve, h2, hg, hc]

theorem checkSignature_error (u : Ucan) (w : World) (hc : Coherent w.parser) (f : Fail) :
    (u.checkSignature w).1 = .error f ↔ DidFault w.parser.ctors u.payload.iss f ∨
      ∃ key, Denotes w.parser.ctors u.payload.iss key ∧ key.verify u.signedData u.signature = .error f := by
  unfold Ucan.checkSignature
  have hp : parseDid u.payload.iss w = ((w.parser.parse u.payload.iss).1, { w with parser := (w.parser.parse u.payload.iss).2 }) := rfl
  rw [← did_iff hc]
  cases hr : (w.parser.parse u.payload.iss).1 with
  | error e =>
    rw [hr] at hp
    rw [M.bind_of_error hp]
    constructor
    · intro h; cases h; exact Or.inl rfl
    · rintro (h | ⟨key, hd, _⟩)
      · cases h; rfl
      · rw [(DidParser.parse_ok_iff hc _ _).2 hd] at hr; cases hr
  | ok key =>
    rw [hr] at hp
    rw [M.bind_of_ok hp, M.lift_apply]
    have hd := (DidParser.parse_ok_iff hc _ _).1 hr
    constructor
    · intro h; exact Or.inr ⟨key, hd, h⟩
    · rintro (h | ⟨key', hd', hv⟩)
      · cases h
      · rw [DidParser.denotes_unique hd hd']; exact hv

/-- Validation fails exactly on invalid UCANs, with the first reason. The two clock readings may differ. -/
theorem validate_error (E : Env) (u : Ucan) (nowTime : Option UInt64) (t : UInt64) (ht : ClockFixed E t) (w : World) (hc : Coherent w.parser)
    (f : Fail) : (u.validate E nowTime w).1 = .error f ↔ Invalid nowTime w.parser.ctors t u f := by
  obtain ⟨b, hb⟩ := (C10_total E u nowTime w).1
  have hb' : u.isExpired E nowTime w = (.ok b, (u.isExpired E nowTime w).2) := by rw [← hb]
  obtain ⟨hp1, ht1, he⟩ := isExpired_false hb'
  rw [ht] at he
  unfold Ucan.validate
  rw [M.bind_of_ok hb']
  cases b with
  | true =>
    have hne : ¬ Unexpired u (nowTime.getD t) := fun h => by cases he.2 h
    simp only [if_true, M.lift_apply]
    constructor
    · intro h
      cases h
      cases hx : u.payload.exp with
      | none => exact absurd (fun e h => by rw [hx] at h; cases h) hne
      | some e =>
        refine .expired e hx (UInt64.not_le.1 fun hle => hne fun e' he' => ?_)
        rw [hx] at he'; cases he'; exact hle
    · intro h
      cases h with
      | expired => rfl
      | early _ hu => exact absurd hu hne
      | key _ hu => exact absurd hu hne
      | signature _ _ hu => exact absurd hu hne
  | false =>
    have hun := he.1 rfl
    obtain ⟨c, hcc⟩ := (C10_total E u nowTime (u.isExpired E nowTime w).2).2
    have hc' : u.isTooEarly E (u.isExpired E nowTime w).2 = (.ok c, (u.isTooEarly E (u.isExpired E nowTime w).2).2) := by rw [← hcc]
    obtain ⟨hp2, ht2, hcl⟩ := isTooEarly_false hc'
    rw [ht] at hcl
    simp only [Bool.false_eq_true, if_false]
    rw [M.bind_of_ok hc']
    have hnx : ∀ e, u.payload.exp = some e → ¬ e < nowTime.getD t := fun e h => UInt64.not_lt.2 (hun e h)
    cases c with
    | true =>
      have hna : ¬ Active u t := fun h => by cases hcl.2 h
      simp only [if_true, M.lift_apply]
      constructor
      · intro h
        cases h
        cases hx : u.payload.nbf with
        | none => exact absurd (fun e h => by rw [hx] at h; cases h) hna
        | some n =>
          refine .early n hun hx (UInt64.not_le.1 fun hle => hna fun e' he' => ?_)
          rw [hx] at he'; cases he'; exact hle
      · intro h
        cases h with
        | expired e h1 h2 => exact absurd h2 (hnx e h1)
        | early => rfl
        | key _ _ ha => exact absurd ha hna
        | signature _ _ _ ha => exact absurd ha hna
    | false =>
      have hac := hcl.1 rfl
      simp only [Bool.false_eq_true, if_false]
      have hpp : (u.isTooEarly E (u.isExpired E nowTime w).2).2.parser = w.parser := hp2.trans hp1
      rw [checkSignature_error u _ (by rw [hpp]; exact hc), hpp]
      constructor
      · rintro (h | ⟨key, h1, h2⟩)
        · exact .key f hun hac h
        · exact .signature key f hun hac h1 h2
      · intro h
        cases h with
        | expired e h1 h2 => exact absurd h2 (hnx e h1)
        | early n _ h1 h2 => exact absurd (hac n h1) (UInt64.not_le.2 h2)
        | key _ _ _ h => exact Or.inl h
        | signature key _ _ _ h1 h2 => exact Or.inr ⟨key, h1, h2⟩

/-- A UCAN is not both valid and invalid. -/
theorem valid_not_invalid {nowTime : Option UInt64} {ctors : BMap Bytes KeyCtor} {t : UInt64} {u : Ucan} {f : Fail}
    (hv : ValidAt nowTime ctors t u) (h : Invalid nowTime ctors t u f) : False := by
  have hc : Coherent (⟨ctors, []⟩ : DidParser) := DidParser.coherent_fresh ctors
  have ht : ClockFixed ⟨fun _ => t, fun _ _ => .ok none⟩ t := fun _ => rfl
  have h1 := (validate_error _ u nowTime t ht ⟨0, ⟨ctors, []⟩⟩ hc f).2 h
  obtain ⟨w', h2⟩ := Chain.validate_ok_of_validAt ht (w := ⟨0, ⟨ctors, []⟩⟩) hc hv
  rw [h2] at h1; cases h1

/-! ## References -/

theorem bytesStr?_none {b : Bytes} : bytesStr? b = none ↔ ∀ x : String, strBytes x ≠ b := by
  constructor
  · rintro h x rfl
    rw [bytesStr?_strBytes] at h; cases h
  · intro h
    cases hb : bytesStr? b with
    | none => rfl
    | some s => exact absurd (bytesStr?_eq_some.1 hb) (h s)

/-- Looking up a CID. -/
theorem cid_iff (E : Env) (hs : StoreFixed E) (c : Cid) (w : World) (f : Fail) : (Store.requireToken E c w).1 = .error f ↔ CidFault E c f := by
  rw [Chain.requireToken_eq]
  by_cases hcd : c.codec = Cid.rawCodec
  · rw [if_neg (by simp [hcd]), hs w.tick 0]
    simp only
    constructor
    · intro h
      cases hr : E.read 0 c with
      | error e => rw [hr] at h; cases h; exact .store _ hcd hr
      | ok v =>
        rw [hr] at h
        simp only at h
        unfold Store.tokenOf at h
        split at h
        · rename_i b
          cases hb : bytesStr? b with
          | some x => rw [hb] at h; cases h
          | none => rw [hb] at h; cases h; exact .utf8 b hcd hr (bytesStr?_none.1 hb)
        · rename_i hnb
          cases h
          exact .absent v hcd hr hnb
    · intro h
      cases h with
      | codec hn => exact absurd hcd hn
      | store _ _ hr => rw [hr]
      | absent v _ hr hn =>
        rw [hr]
        show Store.tokenOf v = _
        unfold Store.tokenOf
        split
        · rename_i b; exact absurd rfl (hn b)
        · rfl
      | utf8 b _ hr hn =>
        rw [hr]
        simp only [Store.tokenOf, bytesStr?_none.2 hn]
        rfl
  · rw [if_pos hcd]
    constructor
    · intro h; cases h; exact .codec hcd
    · intro h
      cases h with
      | codec => rfl
      | store _ hn => exact absurd hn hcd
      | absent _ hn => exact absurd hn hcd
      | utf8 _ hn => exact absurd hn hcd

/-- Looking up an entry of a proof list. -/
theorem reference_iff (D : Deps) (E : Env) (hs : StoreFixed E) (s : String) (w : World) (f : Fail) :
    ((M.lift (orErr .cidText (Cid.parse D s)) >>= fun cid => Store.requireToken E cid) w).1 = .error f ↔ RefFault D E s f := by
  cases hp : Cid.parse D s with
  | none =>
    have h0 : (M.lift (orErr .cidText (none : Option Cid)) : M Cid) w = (.error (.err .cidText), w) := rfl
    rw [M.bind_of_error h0]
    constructor
    · intro h; cases h; exact .text hp
    · intro h
      cases h with
      | text => rfl
      | cid c _ h => rw [hp] at h; cases h
  | some c =>
    have h0 : (M.lift (orErr .cidText (some c)) : M Cid) w = (.ok c, w) := rfl
    rw [M.bind_of_ok h0, cid_iff E hs]
    constructor
    · exact fun h => .cid c f hp h
    · intro h
      cases h with
      | text h => rw [hp] at h; cases h
      | cid c' _ h h' => rw [hp] at h; cases h; exact h'

theorem reference_ok (D : Deps) (E : Env) (hs : StoreFixed E) (s token : String) (w : World) :
    ((M.lift (orErr .cidText (Cid.parse D s)) >>= fun cid => Store.requireToken E cid) w).1 = .ok token ↔ Points D E s token := by
  cases hp : Cid.parse D s with
  | none =>
    have h0 : (M.lift (orErr .cidText (none : Option Cid)) : M Cid) w = (.error (.err .cidText), w) := rfl
    rw [M.bind_of_error h0]
    constructor
    · intro h; cases h
    · rintro ⟨c, h, _⟩; rw [hp] at h; cases h
  | some c =>
    have h0 : (M.lift (orErr .cidText (some c)) : M Cid) w = (.ok c, w) := rfl
    rw [M.bind_of_ok h0]
    constructor
    · intro h
      obtain ⟨h1, h2, _⟩ := Chain.requireToken_ok (show Store.requireToken E c w = (.ok token, (Store.requireToken E c w).2) by rw [← h])
      exact ⟨c, hp, h1, by rw [← hs w.tick 0]; exact h2⟩
    · rintro ⟨c', h, h1, h2⟩
      rw [hp] at h; cases h
      rw [Chain.requireToken_of_read h1 (by rw [hs w.tick 0]; exact h2)]

theorem resolves_iff {D : Deps} {E : Env} {s : String} {v : Ucan} :
    Resolves D (Holds E) s v ↔ ∃ token, Points D E s token ∧ Ucan.fromStr D token = .ok v := by
  constructor
  · rintro ⟨c, t, h1, h2, h3, h4⟩; exact ⟨t, ⟨c, h1, h2, h3⟩, h4⟩
  · rintro ⟨t, ⟨c, h1, h2, h3⟩, h4⟩; exact ⟨c, t, h1, h2, h3, h4⟩

theorem validateLink_error (p u : Ucan) (f : Fail) : Chain.validateLink p u = .error f ↔
    (f = .err .audience ∧ p.payload.aud ≠ u.payload.iss) ∨ (f = .err .lifetime ∧ p.payload.aud = u.payload.iss ∧ ¬ Delegates p u) := by
  have hi := Chain.validateLink_iff p u
  unfold Chain.validateLink at hi ⊢
  by_cases ha : p.audience = u.issuer
  · have ha' : p.payload.aud = u.payload.iss := ha
    simp only [if_pos ha] at hi ⊢
    by_cases hl : p.lifetimeEncompasses u
    · simp only [if_pos hl, true_iff] at hi ⊢
      constructor
      · intro h; cases h
      · rintro (⟨_, h⟩ | ⟨_, _, h⟩)
        · exact absurd ha' h
        · exact absurd hi h
    · simp only [if_neg hl] at hi ⊢
      have hnd : ¬ Delegates p u := fun h => by have := hi.2 h; cases this
      constructor
      · intro h; cases h; exact Or.inr ⟨rfl, ha', hnd⟩
      · rintro (⟨_, h⟩ | ⟨rfl, _⟩)
        · exact absurd ha' h
        · rfl
  · have ha' : p.payload.aud ≠ u.payload.iss := ha
    simp only [if_neg ha]
    constructor
    · intro h; cases h; exact Or.inl ⟨rfl, ha'⟩
    · rintro (⟨rfl, _⟩ | ⟨_, h, _⟩)
      · rfl
      · exact absurd h ha'

/-! ## Proof chains -/

theorem bind_error_iff {α β : Type} {x : M α} {f : α → M β} {w : World} {e : Fail} :
    ((x >>= f) w).1 = .error e ↔ (x w).1 = .error e ∨ ∃ a w1, x w = (.ok a, w1) ∧ (f a w1).1 = .error e := by
  cases hx : x w with
  | mk r w1 =>
    cases r with
    | error e' =>
      rw [M.bind_of_error hx]
      constructor
      · intro h; cases h; exact Or.inl rfl
      · rintro (h | ⟨a, w1, h, _⟩)
        · cases h; rfl
        · cases h
    | ok a =>
      rw [M.bind_of_ok hx]
      constructor
      · intro h; exact Or.inr ⟨a, w1, rfl, h⟩
      · rintro (h | ⟨a', w1', h, h'⟩)
        · cases h
        · cases h; exact h'

/-- The lookup of one entry. -/
def lookup (D : Deps) (E : Env) (s : String) : M String := M.lift (orErr .cidText (Cid.parse D s)) >>= fun cid => Store.requireToken E cid

theorem lookup_keeps {D : Deps} {E : Env} {s : String} {w w' : World} {r : Res String} (hc : Coherent w.parser) (h : lookup D E s w = (r, w')) :
    Chain.Keeps w w' := by
  unfold lookup at h
  exact Chain.bind_keeps (fun _ _ h => Chain.lift_keeps hc h) (fun _ _ _ _ hk h => Chain.requireToken_keeps hk.coherent h) h

/-- How the loop over a proof list fails: at the reference, in the tree below, at the link, or later. -/
theorem loop_error (D : Deps) (E : Env) (rec : String → M Chain) (u : Ucan) (s : String) (ss : List String) (w : World) (f : Fail) :
    (Chain.proofsLoop D E rec u (s :: ss) w).1 = .error f ↔ (lookup D E s w).1 = .error f ∨ ∃ tok w1, lookup D E s w = (.ok tok, w1) ∧
      ((rec tok w1).1 = .error f ∨ ∃ c w2, rec tok w1 = (.ok c, w2) ∧
        (Chain.validateLink c.ucan u = .error f ∨ Chain.validateLink c.ucan u = .ok () ∧ (Chain.proofsLoop D E rec u ss w2).1 = .error f)) := by
  have hassoc : Chain.proofsLoop D E rec u (s :: ss) w = (lookup D E s >>= fun token => (rec token >>= fun c =>
      (M.lift (Chain.validateLink c.ucan u) >>= fun _ => (Chain.proofsLoop D E rec u ss >>= fun cs => (pure (c :: cs) : M (List Chain)))))) w := by
    unfold lookup
    rw [Chain.proofsLoop]
    cases hp : Cid.parse D s with
    | none =>
      have h0 : (M.lift (orErr .cidText (none : Option Cid)) : M Cid) w = (.error (.err .cidText), w) := rfl
      rw [M.bind_of_error h0, M.bind_of_error (M.bind_of_error h0)]
    | some c =>
      have h0 : (M.lift (orErr .cidText (some c)) : M Cid) w = (.ok c, w) := rfl
      rw [M.bind_of_ok h0]
      cases hq : Store.requireToken E c w with
      | mk r w1 =>
        cases r with
        | ok tok => rw [M.bind_of_ok hq, M.bind_of_ok ((M.bind_of_ok h0).trans hq)]
        | error e => rw [M.bind_of_error hq, M.bind_of_error ((M.bind_of_ok h0).trans hq)]
  rw [hassoc, bind_error_iff]
  refine or_congr Iff.rfl (exists_congr fun tok => exists_congr fun w1 => and_congr Iff.rfl ?_)
  rw [bind_error_iff]
  refine or_congr Iff.rfl (exists_congr fun c => exists_congr fun w2 => and_congr Iff.rfl ?_)
  rw [bind_error_iff, M.lift_apply]
  constructor
  · rintro (h | ⟨a, w3, h, h'⟩)
    · exact Or.inl h
    · obtain ⟨h1, rfl⟩ := Prod.mk.inj h
      rcases bind_error_iff.1 h' with h' | ⟨_, _, _, h'⟩
      · exact Or.inr ⟨h1, h'⟩
      · cases h'
  · rintro (h | ⟨h1, h2⟩)
    · exact Or.inl h
    · exact Or.inr ⟨(), w2, by rw [h1], bind_error_iff.2 (Or.inl h2)⟩

open Classical in
theorem redel_exists (D : Deps) (u : Ucan) (n : Nat) (h : ∀ c ∈ u.payload.cap.iter, ∀ i, Redelegates D c i → i < n) : ∃ s, RedelOk D u n s := by
  have hm : ∀ i, i ∈ BSet.extend ([] : BSet Nat) ((List.range n).filter fun i => decide (∃ c ∈ u.payload.cap.iter, Redelegates D c i)) ↔
      ∃ c ∈ u.payload.cap.iter, Redelegates D c i := by
    intro i
    rw [BSet.mem_extend, List.mem_filter, List.mem_range, decide_eq_true_iff]
    constructor
    · rintro (h | h)
      · cases h
      · exact h.2
    · rintro ⟨c, hc, hr⟩; exact Or.inr ⟨h c hc i hr, c, hc, hr⟩
  refine ⟨_, BSet.sorted_extend (by simp [BSet.Sorted]) _, hm, fun i hi => ?_⟩
  obtain ⟨c, hc, hr⟩ := (hm i).1 hi
  exact h c hc i hr

theorem redel_error {D : Deps} {n : Nat} {u : Ucan} {f : Fail} : Chain.redelegations D n u = .error f ↔
    f = .err .noProofAt ∧ ∃ c ∈ u.payload.cap.iter, ∃ i, Redelegates D c i ∧ n ≤ i := by
  have hkind : ∀ vs acc f, Chain.redelLoop n acc vs = .error f → f = .err .noProofAt := by
    intro vs
    induction vs with
    | nil => intro acc f h; cases h
    | cons v vs ih =>
      intro acc f h
      unfold Chain.redelLoop at h
      split at h
      · exact ih _ _ h
      · rename_i e he
        cases h
        unfold Chain.redelStep at he
        split at he
        · cases he
        · split at he
          · cases he
          · cases he; rfl
        · cases he
  constructor
  · intro h
    refine ⟨hkind _ _ _ h, Classical.byContradiction fun hno => ?_⟩
    have hlt : ∀ c ∈ u.payload.cap.iter, ∀ i, Redelegates D c i → i < n := by
      intro c hc i hr
      refine Nat.lt_of_not_le fun hle => hno ⟨c, hc, i, hr, hle⟩
    obtain ⟨s, hs⟩ := redel_exists D u n hlt
    rw [(Chain.redelegations_iff D n u s).2 hs] at h
    cases h
  · rintro ⟨rfl, c, hc, i, hr, hle⟩
    cases h : Chain.redelegations D n u with
    | error e => rw [hkind _ _ _ h]
    | ok s =>
      have hok := (Chain.redelegations_iff D n u s).1 h
      have := hok.inRange i ((hok.claimed i).2 ⟨c, hc, hr⟩)
      omega

section
variable {D : Deps} {E : Env} {nowTime : Option UInt64} {ctors : BMap Bytes KeyCtor} {t : UInt64}

/-- The recursive call reports failures as specified and returns sound trees. -/
structure Reports (D : Deps) (E : Env) (nowTime : Option UInt64) (ctors : BMap Bytes KeyCtor) (t : UInt64) (rec : String → M Chain) : Prop where
  keeps : ∀ tok w r w', Coherent w.parser → rec tok w = (r, w') → Chain.Keeps w w'
  sound : ∀ tok w c w', Coherent w.parser → w.parser.ctors = ctors → rec tok w = (.ok c, w') → Ucan.fromStr D tok = .ok c.ucan ∧
    Sound D (ValidAt nowTime ctors t) (Holds E) c
  fails : ∀ tok w f, Coherent w.parser → w.parser.ctors = ctors → (rec tok w).1 = .error f → f ≠ .diverge → TokenFails D E nowTime ctors t tok f

theorem lookup_ok {s tok : String} (hs : StoreFixed E) {w w1 : World} (h : lookup D E s w = (.ok tok, w1)) : Points D E s tok :=
  (reference_ok D E hs s tok w).1 (congrArg Prod.fst h)

theorem loop_fails (hs : StoreFixed E) {rec : String → M Chain} (hr : Reports D E nowTime ctors t rec) (u : Ucan) (f : Fail) (hf : f ≠ .diverge)
    (ss : List String) : ∀ w, Coherent w.parser → w.parser.ctors = ctors → (Chain.proofsLoop D E rec u ss w).1 = .error f →
      ∃ good s rest, ss = good ++ s :: rest ∧ (∀ x ∈ good, Proves D E (ValidAt nowTime ctors t) u x) ∧ EntryFails D E nowTime ctors t u s f := by
  induction ss with
  | nil => intro w _ _ h; cases h
  | cons s ss ih =>
    intro w hc hct h
    have here : EntryFails D E nowTime ctors t u s f → ∃ good x rest, s :: ss = good ++ x :: rest ∧
        (∀ x ∈ good, Proves D E (ValidAt nowTime ctors t) u x) ∧ EntryFails D E nowTime ctors t u x f :=
      fun h => ⟨[], s, ss, rfl, fun x hx => by (cases hx), h⟩
    rcases (loop_error D E rec u s ss w f).1 h with h | ⟨tok, w1, h1, h⟩
    · exact here (.reference ((reference_iff D E hs s w f).1 h))
    · have hk := lookup_keeps hc h1
      have hp := lookup_ok hs h1
      rcases h with h | ⟨c, w2, h2, h⟩
      · rcases hr.fails tok w1 f hk.coherent (hk.ctors.trans hct) h hf with ⟨e, rfl, he⟩ | ⟨v, hv, hF⟩
        · exact here (.token tok hp he)
        · exact here (.proof v (resolves_iff.2 ⟨tok, hp, hv⟩) hF)
      · obtain ⟨hu, hsd⟩ := hr.sound tok w1 c w2 hk.coherent (hk.ctors.trans hct) h2
        have hk2 := hr.keeps tok w1 _ w2 hk.coherent h2
        have hres := resolves_iff.2 ⟨tok, hp, hu⟩
        rcases h with h | ⟨hl, h⟩
        · rcases (validateLink_error _ _ _).1 h with ⟨rfl, ha⟩ | ⟨rfl, ha, hn⟩
          · exact here (.audience c hres hsd ha)
          · exact here (.lifetime c hres hsd ha hn)
        · obtain ⟨good, x, rest, rfl, hg, hx⟩ := ih w2 hk2.coherent (hk2.ctors.trans (hk.ctors.trans hct)) h
          refine ⟨s :: good, x, rest, rfl, fun y hy => ?_, hx⟩
          rcases List.mem_cons.1 hy with rfl | hy
          · exact ⟨c, hres, (Chain.validateLink_iff _ _).1 hl, hsd⟩
          · exact hg y hy

theorem loop_proves (hs : StoreFixed E) {rec : String → M Chain} (hr : Reports D E nowTime ctors t rec) (u : Ucan) (ss : List String) :
    ∀ w cs w', Coherent w.parser → w.parser.ctors = ctors → Chain.proofsLoop D E rec u ss w = (.ok cs, w') →
      cs.length = ss.length ∧ ∀ x ∈ ss, Proves D E (ValidAt nowTime ctors t) u x := by
  induction ss with
  | nil => intro w cs w' _ _ h; cases h; exact ⟨rfl, fun x hx => by (cases hx)⟩
  | cons s ss ih =>
    intro w cs w' hc hct h
    rw [Chain.proofsLoop] at h
    obtain ⟨cid, w1, h1, h⟩ := M.bind_ok.1 h
    obtain ⟨tok, w2, h2, h⟩ := M.bind_ok.1 h
    obtain ⟨c, w3, h3, h⟩ := M.bind_ok.1 h
    obtain ⟨_, w4, h4, h⟩ := M.bind_ok.1 h
    obtain ⟨cs', w5, h5, h6⟩ := M.bind_ok.1 h
    have hl : lookup D E s w = (.ok tok, w2) := M.bind_ok.2 ⟨cid, w1, h1, h2⟩
    have hk := lookup_keeps hc hl
    have hk2 := hr.keeps tok w2 _ w3 hk.coherent h3
    obtain ⟨hu, hsd⟩ := hr.sound tok w2 c w3 hk.coherent (hk.ctors.trans hct) h3
    rw [M.lift_apply] at h4
    obtain ⟨hv, rfl⟩ := Prod.mk.inj h4
    obtain ⟨hlen, hall⟩ := ih w3 cs' w5 hk2.coherent (hk2.ctors.trans (hk.ctors.trans hct)) h5
    cases (show ((.ok (c :: cs'), w5) : Res (List Chain) × World) = (.ok cs, w') from h6)
    refine ⟨by simp [hlen], fun y hy => ?_⟩
    rcases List.mem_cons.1 hy with rfl | hy
    · exact ⟨c, resolves_iff.2 ⟨tok, lookup_ok hs hl, hu⟩, (Chain.validateLink_iff _ _).1 hv, hsd⟩
    · exact hall y hy

/-- Validation returns, or fails, as specified. -/
theorem validate_cases (E : Env) (u : Ucan) (nowTime : Option UInt64) (t : UInt64) (ht : ClockFixed E t) (w : World) (hc : Coherent w.parser) :
    (∃ f, (u.validate E nowTime w).1 = .error f ∧ Invalid nowTime w.parser.ctors t u f) ∨
    (u.validate E nowTime w).1 = .ok () ∧ ValidAt nowTime w.parser.ctors t u := by
  cases h : (u.validate E nowTime w).1 with
  | error f => exact Or.inl ⟨f, rfl, (validate_error E u nowTime t ht w hc f).1 h⟩
  | ok _ =>
    have h' : (u.validate E nowTime w) = (.ok (), (u.validate E nowTime w).2) := by rw [← h]
    exact Or.inr ⟨rfl, Chain.validIn_fixed ht u (Chain.validate_validIn hc h')⟩

theorem fromUcanWith_fails (ht : ClockFixed E t) (hs : StoreFixed E) {rec : String → M Chain} (hr : Reports D E nowTime ctors t rec) (u : Ucan)
    (f : Fail) (hf : f ≠ .diverge) (w : World) (hc : Coherent w.parser) (hct : w.parser.ctors = ctors)
    (h : (Chain.fromUcanWith D E nowTime rec u w).1 = .error f) : Fails D E nowTime ctors t u f := by
  unfold Chain.fromUcanWith at h
  rcases bind_error_iff.1 h with h | ⟨_, w1, h1, h⟩
  · exact .invalid (by rw [← hct]; exact (validate_error E u nowTime t ht w hc f).1 h)
  · obtain ⟨k1, k2, _⟩ := validate_world hc h1
    have hv : ValidAt nowTime ctors t u := by rw [← hct]; exact Chain.validIn_fixed ht u (Chain.validate_validIn hc h1)
    rcases bind_error_iff.1 h with h | ⟨cs, w2, h2, h⟩
    · obtain ⟨good, s, rest, e, hg, hx⟩ := loop_fails hs hr u f hf _ w1 k1 (k2.trans hct) h
      exact .entry good s rest hv e hg hx
    · obtain ⟨hlen, hall⟩ := loop_proves hs hr u _ w1 cs w2 k1 (k2.trans hct) h2
      rcases bind_error_iff.1 h with h | ⟨_, _, _, h⟩
      · obtain ⟨rfl, c, hcm, i, hi, hle⟩ := redel_error.1 h
        exact .index c i hv hall hcm hi (by rw [hlen] at hle; exact hle)
      · cases h

theorem ofToken_reports (ht : ClockFixed E t) (hs : StoreFixed E) (fuel : Nat) : Reports D E nowTime ctors t (Chain.ofToken D E nowTime fuel) := by
  induction fuel with
  | zero => exact ⟨Chain.ofToken_keeps D E nowTime 0, fun tok w c w' _ _ h => by (cases h), fun tok w f _ _ h hf => by (cases h; exact absurd rfl hf)⟩
  | succ fuel ih =>
    refine ⟨Chain.ofToken_keeps D E nowTime _, fun tok w c w' hc hct h => ?_, fun tok w f hc hct h hf => ?_⟩
    · have := (C24_complete D E nowTime t ht hs tok w hc c).1 ⟨fuel + 1, by rw [h]⟩
      rw [hct] at this; exact this
    · rw [Chain.ofToken] at h
      rcases bind_error_iff.1 h with h | ⟨u, w1, h1, h⟩
      · obtain ⟨e, rfl, he⟩ := (text_iff D tok f).1 h
        exact Or.inl ⟨e, rfl, he⟩
      · rw [M.lift_apply] at h1
        obtain ⟨hu, rfl⟩ := Prod.mk.inj h1
        exact Or.inr ⟨u, hu, fromUcanWith_fails ht hs ih u f hf w hc hct h⟩

/-- From some depth on, an entry that is a proof is passed over. -/
theorem proves_pass (ht : ClockFixed E t) (hs : StoreFixed E) {u : Ucan} {s : String} (h : Proves D E (ValidAt nowTime ctors t) u s) :
    ∃ N, ∀ fuel, N ≤ fuel → ∀ ss f, (∀ w, Coherent w.parser → w.parser.ctors = ctors →
      (Chain.proofsLoop D E (Chain.ofToken D E nowTime fuel) u ss w).1 = .error f) → ∀ w, Coherent w.parser → w.parser.ctors = ctors →
      (Chain.proofsLoop D E (Chain.ofToken D E nowTime fuel) u (s :: ss) w).1 = .error f := by
  obtain ⟨c, hres, hd, hsd⟩ := h
  refine ⟨levels c, fun fuel hfu ss f hrest w hc hct => (loop_error ..).2 (Or.inr ?_)⟩
  obtain ⟨tok, hp, hu⟩ := resolves_iff.1 hres
  have hl : lookup D E s w = (.ok tok, (lookup D E s w).2) := by rw [← (reference_ok D E hs s tok w).2 hp]; rfl
  have hk := lookup_keeps hc hl
  have h2 := C24_depth D E nowTime t ht hs tok (lookup D E s w).2 hk.coherent c hu (by rw [hk.ctors.trans hct]; exact hsd) fuel hfu
  have h2' : Chain.ofToken D E nowTime fuel tok (lookup D E s w).2 = (.ok c, (Chain.ofToken D E nowTime fuel tok (lookup D E s w).2).2) := by rw [← h2]
  have hk2 := Chain.ofToken_keeps D E nowTime fuel _ _ _ _ hk.coherent h2'
  exact ⟨tok, _, hl, Or.inr ⟨c, _, h2', Or.inr ⟨(Chain.validateLink_iff _ _).2 hd, hrest _ hk2.coherent (hk2.ctors.trans (hk.ctors.trans hct))⟩⟩⟩

theorem good_pass (ht : ClockFixed E t) (hs : StoreFixed E) {u : Ucan} (good : List String)
    (h : ∀ x ∈ good, Proves D E (ValidAt nowTime ctors t) u x) :
    ∃ N, ∀ fuel, N ≤ fuel → ∀ ss f, (∀ w, Coherent w.parser → w.parser.ctors = ctors →
      (Chain.proofsLoop D E (Chain.ofToken D E nowTime fuel) u ss w).1 = .error f) → ∀ w, Coherent w.parser → w.parser.ctors = ctors →
      (Chain.proofsLoop D E (Chain.ofToken D E nowTime fuel) u (good ++ ss) w).1 = .error f := by
  induction good with
  | nil => exact ⟨0, fun fuel _ ss f h => h⟩
  | cons s good ih =>
    obtain ⟨N1, h1⟩ := proves_pass ht hs (h s (by simp))
    obtain ⟨N2, h2⟩ := ih (fun x hx => h x (by simp [hx]))
    refine ⟨max N1 N2, fun fuel hfu ss f hrest => ?_⟩
    exact h1 fuel (by omega) (good ++ ss) f (h2 fuel (by omega) ss f hrest)

/-- Proofs for all entries make up the proofs of a chain. -/
theorem all_sound {V : Ucan → Prop} {u : Ucan} (ss : List String) (h : ∀ x ∈ ss, Proves D E V u x) :
    ∃ cs, cs.length = ss.length ∧ SoundAll D V (Holds E) u ss cs := by
  induction ss with
  | nil => exact ⟨[], rfl, by simp only [SoundAll]⟩
  | cons s ss ih =>
    obtain ⟨cs, hl, hcs⟩ := ih (fun x hx => h x (by simp [hx]))
    obtain ⟨c, h1, h2, h3⟩ := h s (by simp)
    exact ⟨c :: cs, by simp [hl], by simp only [SoundAll]; exact ⟨s, ss, rfl, h1, h2, h3, hcs⟩⟩

/-- Construction from `u` fails so, from some depth on. -/
def Runs (D : Deps) (E : Env) (nowTime : Option UInt64) (ctors : BMap Bytes KeyCtor) (u : Ucan) (f : Fail) : Prop :=
  ∃ N, ∀ fuel, N ≤ fuel → ∀ w, Coherent w.parser → w.parser.ctors = ctors → (Chain.fromUcan D E nowTime fuel u w).1 = .error f

/-- The loop fails so at the entry `s`, from some depth on. -/
def EntryRuns (D : Deps) (E : Env) (nowTime : Option UInt64) (ctors : BMap Bytes KeyCtor) (u : Ucan) (s : String) (f : Fail) : Prop :=
  ∃ N, ∀ fuel, N ≤ fuel → ∀ ss w, Coherent w.parser → w.parser.ctors = ctors →
    (Chain.proofsLoop D E (Chain.ofToken D E nowTime fuel) u (s :: ss) w).1 = .error f

theorem fails_runs (ht : ClockFixed E t) (hs : StoreFixed E) {u : Ucan} {f : Fail} (h : Fails D E nowTime ctors t u f) :
    f ≠ .diverge → Runs D E nowTime ctors u f := by
  refine Fails.rec (motive_1 := fun u f _ => f ≠ .diverge → Runs D E nowTime ctors u f)
    (motive_2 := fun u s f _ => f ≠ .diverge → EntryRuns D E nowTime ctors u s f) ?_ ?_ ?_ ?_ ?_ ?_ ?_ ?_ h
  · intro u f hi hf
    refine ⟨0, fun fuel _ w hc hct => bind_error_iff.2 (Or.inl ((validate_error E u nowTime t ht w hc f).2 (by rw [hct]; exact hi)))⟩
  · intro u f good s rest hv hprf hg hx ih hf
    obtain ⟨N1, h1⟩ := good_pass ht hs good hg
    obtain ⟨N2, h2⟩ := ih hf
    refine ⟨max N1 N2, fun fuel hfu w hc hct => bind_error_iff.2 (Or.inr ?_)⟩
    obtain ⟨w1, hw1⟩ := Chain.validate_ok_of_validAt ht hc (by rw [hct]; exact hv)
    obtain ⟨k1, k2, _⟩ := validate_world hc hw1
    refine ⟨(), w1, hw1, bind_error_iff.2 (Or.inl ?_)⟩
    rw [show u.proofs.getD [] = good ++ s :: rest from hprf]
    exact h1 fuel (by omega) (s :: rest) f (h2 fuel (by omega) rest) w1 k1 (k2.trans hct)
  · intro u c i hv hall hcm hi hle hf
    obtain ⟨cs, hlen, hcs⟩ := all_sound _ hall
    refine ⟨levelsAll cs, fun fuel hfu w hc hct => bind_error_iff.2 (Or.inr ?_)⟩
    obtain ⟨w1, hw1⟩ := Chain.validate_ok_of_validAt ht hc (by rw [hct]; exact hv)
    obtain ⟨k1, k2, _⟩ := validate_world hc hw1
    refine ⟨(), w1, hw1, bind_error_iff.2 (Or.inr ?_)⟩
    obtain ⟨w2, hw2⟩ := Chain.proofsLoop_complete (Chain.enables_fixed ht hs ctors) (Chain.ofToken D E nowTime fuel) u
      (Chain.ofToken_keeps D E nowTime fuel) cs
      (fun c hc tok w h1 h2 h3 h4 h5 => Chain.ofToken_complete (Chain.enables_fixed ht hs ctors) fuel tok w c h1 h2 h3
        (Nat.le_trans (Chain.levels_le_levelsAll hc) hfu) h4 h5)
      _ w1 k1 (k2.trans hct) (Nat.zero_le _) hcs
    refine ⟨cs, w2, hw2, bind_error_iff.2 (Or.inl (redel_error.2 ⟨rfl, c, hcm, i, hi, ?_⟩))⟩
    omega
  · intro u s f hr hf
    exact ⟨0, fun fuel _ ss w hc hct => (loop_error ..).2 (Or.inl ((reference_iff D E hs s w f).2 hr))⟩
  · intro u s e tok hp he hf
    refine ⟨1, fun fuel hfu ss w hc hct => (loop_error ..).2 (Or.inr ?_)⟩
    have hl : lookup D E s w = (.ok tok, (lookup D E s w).2) := by rw [← (reference_ok D E hs s tok w).2 hp]; rfl
    refine ⟨tok, _, hl, Or.inl ?_⟩
    obtain ⟨fuel, rfl⟩ : ∃ n, fuel = n + 1 := ⟨fuel - 1, by omega⟩
    rw [Chain.ofToken]
    exact bind_error_iff.2 (Or.inl ((text_iff D tok _).2 ⟨e, rfl, he⟩))
  · intro u s f v hres hF ih hf
    obtain ⟨N, hN⟩ := ih hf
    refine ⟨N + 1, fun fuel hfu ss w hc hct => (loop_error ..).2 (Or.inr ?_)⟩
    obtain ⟨tok, hp, hu⟩ := resolves_iff.1 hres
    have hl : lookup D E s w = (.ok tok, (lookup D E s w).2) := by rw [← (reference_ok D E hs s tok w).2 hp]; rfl
    have hk := lookup_keeps hc hl
    refine ⟨tok, _, hl, Or.inl ?_⟩
    obtain ⟨fuel, rfl⟩ : ∃ n, fuel = n + 1 := ⟨fuel - 1, by omega⟩
    rw [Chain.ofToken]
    refine bind_error_iff.2 (Or.inr ⟨v, _, by rw [M.lift_apply, hu], ?_⟩)
    exact hN fuel (by omega) _ hk.coherent (hk.ctors.trans hct)
  · intro u s c hres hsd ha hf
    refine ⟨levels c, fun fuel hfu ss w hc hct => (loop_error ..).2 (Or.inr ?_)⟩
    obtain ⟨tok, hp, hu⟩ := resolves_iff.1 hres
    have hl : lookup D E s w = (.ok tok, (lookup D E s w).2) := by rw [← (reference_ok D E hs s tok w).2 hp]; rfl
    have hk := lookup_keeps hc hl
    have h2 := C24_depth D E nowTime t ht hs tok (lookup D E s w).2 hk.coherent c hu (by rw [hk.ctors.trans hct]; exact hsd) fuel hfu
    exact ⟨tok, _, hl, Or.inr ⟨c, (Chain.ofToken D E nowTime fuel tok (lookup D E s w).2).2, by rw [← h2],
      Or.inl ((validateLink_error _ _ _).2 (Or.inl ⟨rfl, ha⟩))⟩⟩
  · intro u s c hres hsd ha hn hf
    refine ⟨levels c, fun fuel hfu ss w hc hct => (loop_error ..).2 (Or.inr ?_)⟩
    obtain ⟨tok, hp, hu⟩ := resolves_iff.1 hres
    have hl : lookup D E s w = (.ok tok, (lookup D E s w).2) := by rw [← (reference_ok D E hs s tok w).2 hp]; rfl
    have hk := lookup_keeps hc hl
    have h2 := C24_depth D E nowTime t ht hs tok (lookup D E s w).2 hk.coherent c hu (by rw [hk.ctors.trans hct]; exact hsd) fuel hfu
    exact ⟨tok, _, hl, Or.inr ⟨c, (Chain.ofToken D E nowTime fuel tok (lookup D E s w).2).2, by rw [← h2],
      Or.inl ((validateLink_error _ _ _).2 (Or.inr ⟨rfl, ha, hn⟩))⟩⟩

end

end Failure

open Failure

/-! ## C79 -/

/-- C79: the text of a token is refused exactly if a segment is at fault, with the error of the first such segment. -/
theorem C79_text (D : Deps) (t : String) (x : Fail) : Ucan.fromStr D t = .error x ↔ ∃ e, x = .err e ∧ TextFault D (strBytes t) e :=
  text_iff D t x

/-- C79: a DID is refused exactly if it has no key, with the first reason, whatever the parser was asked before. -/
theorem C79_did (p : DidParser) (hp : Coherent p) (did : String) (f : Fail) : (p.parse did).1 = .error f ↔ DidFault p.ctors did f := did_iff hp did f

/-- C79: validation fails exactly on invalid UCANs, with the first reason. -/
theorem C79_validate (E : Env) (u : Ucan) (nowTime : Option UInt64) (t : UInt64) (ht : ClockFixed E t) (w : World) (hc : Coherent w.parser)
    (f : Fail) : (u.validate E nowTime w).1 = .error f ↔ Invalid nowTime w.parser.ctors t u f := validate_error E u nowTime t ht w hc f

theorem Failure.token_runs {D : Deps} {E : Env} {nowTime : Option UInt64} {t : UInt64} {token : String} {w : World} {f : Fail} (ht : ClockFixed E t)
    (hs : StoreFixed E) (hf : f ≠ .diverge) (h : TokenFails D E nowTime w.parser.ctors t token f) :
    ∃ N, ∀ fuel, N ≤ fuel → ∀ w1, Coherent w1.parser → w1.parser.ctors = w.parser.ctors → (Chain.ofToken D E nowTime fuel token w1).1 = .error f := by
  rcases h with ⟨e, rfl, he⟩ | ⟨u, hu, hF⟩
  · refine ⟨1, fun fuel hfu w1 _ _ => ?_⟩
    obtain ⟨fuel, rfl⟩ : ∃ n, fuel = n + 1 := ⟨fuel - 1, by omega⟩
    rw [Chain.ofToken]
    exact bind_error_iff.2 (Or.inl ((text_iff D token _).2 ⟨e, rfl, he⟩))
  · obtain ⟨N, hN⟩ := fails_runs ht hs hF hf
    refine ⟨N + 1, fun fuel hfu w1 hc1 hct => ?_⟩
    obtain ⟨fuel, rfl⟩ : ∃ n, fuel = n + 1 := ⟨fuel - 1, by omega⟩
    rw [Chain.ofToken]
    exact bind_error_iff.2 (Or.inr ⟨u, _, by rw [M.lift_apply, hu], hN fuel (by omega) w1 hc1 hct⟩)

/-- C79: with a fixed clock and store, construction of a chain from a token fails exactly if the token or something below it is defective,
with the failure of the first defect. -/
theorem C79_token (D : Deps) (E : Env) (nowTime : Option UInt64) (t : UInt64) (ht : ClockFixed E t) (hs : StoreFixed E) (token : String)
    (w : World) (hc : Coherent w.parser) (f : Fail) (hf : f ≠ .diverge) :
    (∃ fuel, (Chain.ofToken D E nowTime fuel token w).1 = .error f) ↔ TokenFails D E nowTime w.parser.ctors t token f := by
  constructor
  · rintro ⟨fuel, h⟩
    exact (ofToken_reports ht hs fuel).fails token w f hc rfl h hf
  · intro h
    obtain ⟨N, hN⟩ := token_runs ht hs hf h
    exact ⟨N, hN N (Nat.le_refl _) w hc rfl⟩

/-- C79 for construction from a UCAN. -/
theorem C79_ucan (D : Deps) (E : Env) (nowTime : Option UInt64) (t : UInt64) (ht : ClockFixed E t) (hs : StoreFixed E) (u : Ucan)
    (w : World) (hc : Coherent w.parser) (f : Fail) (hf : f ≠ .diverge) :
    (∃ fuel, (Chain.fromUcan D E nowTime fuel u w).1 = .error f) ↔ Fails D E nowTime w.parser.ctors t u f := by
  constructor
  · rintro ⟨fuel, h⟩
    exact fromUcanWith_fails ht hs (ofToken_reports ht hs fuel) u f hf w hc rfl h
  · intro h
    obtain ⟨N, hN⟩ := fails_runs ht hs h hf
    exact ⟨N, hN N (Nat.le_refl _) w hc rfl⟩

/-- C79 for construction from a CID: the lookup comes first. -/
theorem C79_cid (D : Deps) (E : Env) (nowTime : Option UInt64) (t : UInt64) (ht : ClockFixed E t) (hs : StoreFixed E) (cid : Cid)
    (w : World) (hc : Coherent w.parser) (f : Fail) (hf : f ≠ .diverge) :
    (∃ fuel, (Chain.fromCid D E nowTime fuel cid w).1 = .error f) ↔ CidFault E cid f ∨
      ∃ token, cid.codec = Cid.rawCodec ∧ Holds E cid (strBytes token) ∧ TokenFails D E nowTime w.parser.ctors t token f := by
  constructor
  · rintro ⟨fuel, h⟩
    rcases bind_error_iff.1 h with h | ⟨token, w1, h1, h⟩
    · exact Or.inl ((cid_iff E hs cid w f).1 h)
    · obtain ⟨hcd, hr, _⟩ := Chain.requireToken_ok h1
      have hk := Chain.requireToken_keeps hc h1
      refine Or.inr ⟨token, hcd, by rw [hs w.tick 0] at hr; exact hr, ?_⟩
      exact (ofToken_reports ht hs fuel).fails token w1 f hk.coherent hk.ctors h hf
  · rintro (h | ⟨token, hcd, hr, h⟩)
    · exact ⟨0, bind_error_iff.2 (Or.inl ((cid_iff E hs cid w f).2 h))⟩
    · obtain ⟨N, hN⟩ := token_runs ht hs hf h
      exact ⟨N, bind_error_iff.2 (Or.inr ⟨token, _, Chain.requireToken_of_read hcd (by rw [hs w.tick 0]; exact hr), hN N (Nat.le_refl _) _ hc rfl⟩)⟩

/-- C79: there is one first defect. -/
theorem C79_unique (D : Deps) (E : Env) (nowTime : Option UInt64) (t : UInt64) (ht : ClockFixed E t) (hs : StoreFixed E) (ctors : BMap Bytes KeyCtor)
    (token : String) (f g : Fail) (hf : f ≠ .diverge) (hg : g ≠ .diverge) (h : TokenFails D E nowTime ctors t token f)
    (h' : TokenFails D E nowTime ctors t token g) : f = g := by
  obtain ⟨n, hn⟩ := (C79_token D E nowTime t ht hs token ⟨0, ⟨ctors, []⟩⟩ (DidParser.coherent_fresh ctors) f hf).2 h
  obtain ⟨m, hm⟩ := (C79_token D E nowTime t ht hs token ⟨0, ⟨ctors, []⟩⟩ (DidParser.coherent_fresh ctors) g hg).2 h'
  have := C24_fuel_irrelevant D E nowTime n m token _ (by rw [hn]; intro h; cases h; exact hf rfl) (by rw [hm]; intro h; cases h; exact hg rfl)
  rw [this, hm] at hn
  cases hn; rfl

/-- C79: a defective token has no sound tree. -/
theorem C79_exclusive (D : Deps) (E : Env) (nowTime : Option UInt64) (t : UInt64) (ht : ClockFixed E t) (hs : StoreFixed E)
    (ctors : BMap Bytes KeyCtor) (token : String) (f : Fail) (hf : f ≠ .diverge) (h : TokenFails D E nowTime ctors t token f) (c : Chain)
    (hu : Ucan.fromStr D token = .ok c.ucan) : ¬ Sound D (ValidAt nowTime ctors t) (Holds E) c := by
  intro hsd
  obtain ⟨n, hn⟩ := (C79_token D E nowTime t ht hs token ⟨0, ⟨ctors, []⟩⟩ (DidParser.coherent_fresh ctors) f hf).2 h
  obtain ⟨m, hm⟩ := (C24_complete D E nowTime t ht hs token ⟨0, ⟨ctors, []⟩⟩ (DidParser.coherent_fresh ctors) c).2 ⟨hu, hsd⟩
  have := C24_fuel_irrelevant D E nowTime n m token _ (by rw [hn]; intro h; cases h; exact hf rfl) (by rw [hm]; intro h; cases h)
  rw [this, hm] at hn
  cases hn

/-- C79: what neither has a sound tree nor a first defect is recursed into without end, and nothing else is. -/
theorem C79_endless (D : Deps) (E : Env) (nowTime : Option UInt64) (t : UInt64) (ht : ClockFixed E t) (hs : StoreFixed E) (token : String)
    (w : World) (hc : Coherent w.parser) : (∀ fuel, (Chain.ofToken D E nowTime fuel token w).1 = .error .diverge) ↔
      (¬ ∃ c : Chain, Ucan.fromStr D token = .ok c.ucan ∧ Sound D (ValidAt nowTime w.parser.ctors t) (Holds E) c) ∧
      ¬ ∃ f, f ≠ .diverge ∧ TokenFails D E nowTime w.parser.ctors t token f := by
  constructor
  · intro h
    refine ⟨fun ⟨c, hu, hsd⟩ => ?_, fun ⟨f, hf, hF⟩ => ?_⟩
    · obtain ⟨n, hn⟩ := (C24_complete D E nowTime t ht hs token w hc c).2 ⟨hu, hsd⟩
      rw [h n] at hn; cases hn
    · obtain ⟨n, hn⟩ := (C79_token D E nowTime t ht hs token w hc f hf).2 hF
      rw [h n] at hn; cases hn; exact hf rfl
  · rintro ⟨h1, h2⟩ fuel
    cases hr : (Chain.ofToken D E nowTime fuel token w).1 with
    | ok c => exact absurd ⟨c, (C24_complete D E nowTime t ht hs token w hc c).1 ⟨fuel, hr⟩⟩ h1
    | error f =>
      by_cases hf : f = .diverge
      · rw [hf]
      · exact absurd ⟨f, hf, (C79_token D E nowTime t ht hs token w hc f hf).1 ⟨fuel, hr⟩⟩ h2

namespace Ex
open Chain

/-- A UCAN of key 2 whose first proof is the example grant and whose second is not in the store. -/
def halfProved (D : Deps) : Ucan :=
  ucan D 2 (did 3) (some 10) (some 6) (some [(cid 1).toStr, (cid 2).toStr]) (caps ("prf:" ++ asciiStr (Json.decBytes 0)) "ucan/DELEGATE")

/-- Beside C79: the second proof is reported. -/
theorem halfProved_fails (D : Deps) : TokenFails D (env D) none exCtors 7 ((halfProved D).encode D) (.err .noToken) := by
  refine Or.inr ⟨halfProved D, parses D 2 _ _ _ _ _ _, .entry [(cid 1).toStr] (cid 2).toStr [] (valid D 2 _ 10 6 _ _ 7 (by decide) (by decide)) rfl ?_
    (.reference (.cid (cid 2) _ (cid_parse D 2) (.absent none rfl ?_ (by simp))))⟩
  · intro x hx
    rw [List.mem_singleton.1 hx]
    have hsd := Sound.all (chain_sound D)
    have hm := SoundAll.mem hsd.2.1 (leafChain D) (List.mem_singleton.2 rfl)
    exact ⟨leafChain D, leaf_resolves D, ⟨rfl, fun n hn => ⟨6, rfl, by cases hn; decide⟩, fun n hn => ⟨10, rfl, by cases hn; decide⟩⟩, hm.2.1⟩
  · show Store.memRead (dags D) (cid 2) = _
    unfold Store.memRead dags
    rw [if_neg (by decide)]
    rfl

example (D : Deps) : ∃ fuel, (ofToken D (env D) none fuel ((halfProved D).encode D) world).1 = .error (.err .noToken) :=
  (C79_token D (env D) none 7 (fun _ => rfl) (fun _ _ _ => rfl) _ world world_coherent _ (by decide)).2 (halfProved_fails D)

/-- Beside C79: an expired UCAN with a missing proof is reported as expired. -/
example (D : Deps) : Fails D (still (dags D) 21) none exCtors 21 (halfProved D) (.err .expired) := .invalid (.expired 10 rfl (by decide))

/-- Beside C79: a token that proves itself has no first defect. -/
example (D : Deps) : ¬ ∃ f, f ≠ .diverge ∧ TokenFails D (cyclic D) none exCtors 7 ((selfish D).encode D) f := by
  refine ((C79_endless D (cyclic D) none 7 (fun _ => rfl) (fun _ _ _ => rfl) _ world world_coherent).1 fun fuel => ?_).2
  have hp : Ucan.fromStr D ((selfish D).encode D) = .ok (selfish D) := parses D 1 _ _ _ _ _ _
  generalize (selfish D).encode D = token at hp
  cases fuel with
  | zero => rw [Chain.ofToken, M.lift_apply]
  | succ fuel =>
    have := C36_endless D _ none exCtors _ (cyclic_endless D) fuel _ world rfl world_coherent rfl
    rw [Chain.ofToken, hp]
    rw [← this]
    exact congrArg Prod.fst (M.bind_of_ok rfl)

end Ex
end Verif
