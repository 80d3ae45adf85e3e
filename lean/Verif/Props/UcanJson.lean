import Verif.Model.UcanJson
import Verif.Spec.UcanJson
import Verif.Props.Wire
import Verif.Props.Crypto
import Verif.Model.Chain
import Verif.Props.ProofSemantics

/-! # UCAN values as documents (C75) -/

namespace Verif
open Spec

namespace Codec
open DagJson (toIpld toValue toIpld_str toIpld_int toIpld_null toIpld_list)

/-! ## Reading -/

theorem asU8_iff {D : Deps} {w : Json} {i : Ipld} (h : toIpld D w = some i) (n : UInt8) : asU8 i = some n ↔ w = .int n.toNat := by
  constructor
  · intro hs
    unfold asU8 at hs
    split at hs
    · rename_i z
      split at hs
      · rename_i hz
        cases hs
        rw [toIpld_int h]
        congr 1
        rw [UInt8.toNat_ofNat']
        have : z.toNat < 2 ^ 8 := by omega
        rw [Nat.mod_eq_of_lt this]
        omega
      · cases hs
    · cases hs
  · rintro rfl
    cases h
    have := n.toNat_lt
    rw [asU8, if_pos (by omega)]
    simp

theorem asOctets_iff {D : Deps} {w : Json} {i : Ipld} (h : toIpld D w = some i) (l : Bytes) : asList asU8 i = some l ↔ w = byteList l := by
  unfold byteList
  rw [asList_iff (g := fun n : UInt8 => Json.int n.toNat) (R := fun x y => x = y) (fun w i h a => asU8_iff h a) h]
  constructor
  · rintro ⟨l', rfl, hl, hp⟩
    congr 1
    refine List.ext_getElem? fun n => ?_
    rw [List.getElem?_map]
    by_cases hn : n < l'.length
    · have hn2 : n < l.length := by omega
      have := hp n l'[n] l[n] (List.getElem?_eq_getElem hn) (List.getElem?_eq_getElem hn2)
      rw [List.getElem?_eq_getElem hn, List.getElem?_eq_getElem hn2, this]
      rfl
    · rw [List.getElem?_eq_none (by omega), List.getElem?_eq_none (by omega)]
      rfl
  · rintro rfl
    refine ⟨_, rfl, by simp, fun n x a hx ha => ?_⟩
    rw [List.getElem?_map, ha] at hx
    cases hx
    rfl

/-- Reading a value inside a document, given how it is read from maps and lists. -/
theorem value_iff {D : Deps} {α : Type} {f : Ipld → Option α} (hf : ∀ i a, f i = some a → (∃ M, i = .map M) ∨ ∃ L, i = .list L) {R : Json → α → Prop}
    (hv : ∀ v a, R v a → (∃ m, v = .obj m) ∨ ∃ l, v = .arr l)
    (hR : ∀ m n, mapVals (toIpld D) m = some n → ∀ a, f (.map (BMap.ofList n)) = some a ↔ R (.obj m) a)
    (hL : ∀ l n, mapAll (toIpld D) l = some n → ∀ a, f (.list n) = some a ↔ R (.arr l) a)
    (hres : ∀ m a, R (.obj m) a → (∀ s, ¬ IsLink m s) ∧ ∀ s, ¬ IsBytes m s) {w : Json} {i : Ipld} (hi : toIpld D w = some i) (a : α) :
    f i = some a ↔ R w a := by
  constructor
  · intro ha
    rcases hf i a ha with ⟨M, rfl⟩ | ⟨L, rfl⟩
    · obtain ⟨m, n, rfl, hn, rfl⟩ := DagJson.toIpld_map hi
      exact (hR m n hn a).1 ha
    · obtain ⟨l, rfl, hn⟩ := toIpld_list hi
      exact (hL l L hn a).1 ha
  · intro ha
    rcases hv w a ha with ⟨m, rfl⟩ | ⟨l, rfl⟩
    · obtain ⟨n, hn, hm⟩ := DagJson.toIpld_obj hi
      obtain ⟨h1, h2⟩ := hres m a ha
      rw [(DagJson.mkMap_iff hn).2.2 h1 h2] at hm
      cases hm
      exact (hR m n hn a).2 ha
    · rw [toIpld, Option.map_eq_some_iff, DagJson.toIpldList_eq] at hi
      obtain ⟨r, h1, rfl⟩ := hi
      exact (hL l r h1 a).2 ha

theorem headerValue_iff {D : Deps} {w : Json} {i : Ipld} (hi : toIpld D w = some i) (h : Header) : headerOfIpld D i = some h ↔ HeaderValue D w h := by
  refine value_iff (fun i a h => ?_) (fun v a h => ?_) (fun m n hn a => (headerOfIpld_iff hn a).trans ⟨.members, fun h => by cases h; assumption⟩)
    (fun l n hn a => (headerOfIpld_list hn a).trans ⟨fun h => .elements h.1 h.2, fun h => by cases h; exact ⟨‹_›, ‹_›⟩⟩)
    (fun m a h => ?_) hi h
  · unfold headerOfIpld at h
    split at h
    · exact .inl ⟨_, rfl⟩
    · exact .inr ⟨_, rfl⟩
    · cases h
  · cases h
    · exact .inl ⟨_, rfl⟩
    · exact .inr ⟨_, rfl⟩
  · cases h with
    | members h => exact not_reserved (by decide) h.alg

theorem payloadValue_iff {D : Deps} {w : Json} {i : Ipld} (hi : toIpld D w = some i) (p : Payload) : payloadOfIpld D i = some p ↔ PayloadValue D w p := by
  refine value_iff (fun i a h => ?_) (fun v a h => ?_) (fun m n hn a => (payloadOfIpld_iff hn a).trans ⟨.members, fun h => by cases h; assumption⟩)
    (fun l n hn a => (payloadOfIpld_list hn a).trans ⟨fun h => .elements h.1 h.2, fun h => by cases h; exact ⟨‹_›, ‹_›⟩⟩)
    (fun m a h => ?_) hi p
  · unfold payloadOfIpld at h
    split at h
    · exact .inl ⟨_, rfl⟩
    · exact .inr ⟨_, rfl⟩
    · cases h
  · cases h
    · exact .inl ⟨_, rfl⟩
    · exact .inr ⟨_, rfl⟩
  · cases h with
    | members h => exact not_reserved (by decide) h.ucv

theorem ucanOfIpld_iff {D : Deps} {m : List (String × Json)} {n : List (String × Ipld)} (hn : mapVals (toIpld D) m = some n) (u : Ucan) :
    ucanOfIpld D (.map (BMap.ofList n)) = some u ↔ ReadsUcan D m u := by
  have s1 := fun k a => reqVal_iff (f := headerOfIpld D) (R := fun h w => HeaderValue D w h) (fun w i h a => headerValue_iff h a) hn k a
  have s2 := fun k a => reqVal_iff (f := payloadOfIpld D) (R := fun h w => PayloadValue D w h) (fun w i h a => payloadValue_iff h a) hn k a
  have s3 := fun k a => (reqVal_iff (f := asList asU8) (R := fun b w => w = byteList b) (fun w i h a => asOctets_iff h a) hn k a).trans
    (⟨by rintro ⟨w, h, rfl⟩; exact h, fun h => ⟨_, h, rfl⟩⟩ : (∃ w, Member m k w ∧ w = byteList a) ↔ Member m k (byteList a))
  rw [ucanOfIpld, ucanOf]
  constructor
  · intro h
    split at h
    · rename_i a1 a2 a3 a4 h1 h2 h3 h4
      cases h
      exact ⟨(s1 _ _).1 h1, (s2 _ _).1 h2, (s3 _ _).1 h3, (s3 _ _).1 h4⟩
    · cases h
  · intro h
    rw [(s1 _ _).2 h.header, (s2 _ _).2 h.payload, (s3 _ _).2 h.signedData, (s3 _ _).2 h.signature]

theorem ucanOfIpld_list {D : Deps} {l : List Json} {n : List Ipld} (hn : mapAll (toIpld D) l = some n) (u : Ucan) :
    ucanOfIpld D (.list n) = some u ↔ D.structSeq = true ∧ ListsUcan D l u := by
  constructor
  · intro h
    unfold ucanOfIpld at h
    split at h
    · rename_i e; cases e
    · rename_i i1 i2 i3 i4 e
      cases e
      split at h
      · rename_i hs
        refine ⟨hs, ?_⟩
        obtain ⟨w1, _, rfl, e1, hn⟩ := mapAll_cons.1 hn
        obtain ⟨w2, _, rfl, e2, hn⟩ := mapAll_cons.1 hn
        obtain ⟨w3, _, rfl, e3, hn⟩ := mapAll_cons.1 hn
        obtain ⟨w4, _, rfl, e4, hn⟩ := mapAll_cons.1 hn
        rw [mapAll_nil] at hn
        subst hn
        unfold ucanOf at h
        split at h
        · rename_i a1 a2 a3 a4 h1 h2 h3 h4
          cases h
          exact ⟨w1, w2, by rw [(asOctets_iff e3 _).1 h3, (asOctets_iff e4 _).1 h4], (headerValue_iff e1 _).1 h1, (payloadValue_iff e2 _).1 h2⟩
        · cases h
      · cases h
    · cases h
  · rintro ⟨hs, w1, w2, rfl, h1, h2⟩
    obtain ⟨i1, _, rfl, e1, hn⟩ := mapAll_cons'.1 hn
    obtain ⟨i2, _, rfl, e2, hn⟩ := mapAll_cons'.1 hn
    obtain ⟨i3, _, rfl, e3, hn⟩ := mapAll_cons'.1 hn
    obtain ⟨i4, _, rfl, e4, hn⟩ := mapAll_cons'.1 hn
    cases hn
    rw [ucanOfIpld, if_pos hs, ucanOf]
    simp only [reqVal]
    rw [(headerValue_iff e1 _).2 h1, (payloadValue_iff e2 _).2 h2, (asOctets_iff e3 _).2 rfl, (asOctets_iff e4 _).2 rfl]

end Codec

open Codec in
/-- C75: exactly which bytes are read as which UCAN. -/
theorem C75_read (D : Deps) (b : Bytes) (u : Ucan) :
    Codec.ucanOfBytes D b = some u ↔ ∃ v, Document D b v ∧ Readable D v ∧ UcanValue D v u := by
  refine decode_iff (fun i a h => ?_) (fun v a h => ?_) (fun m n hn a => (ucanOfIpld_iff hn a).trans ⟨.members, fun h => by cases h; assumption⟩)
    (fun l n hn a => (ucanOfIpld_list hn a).trans ⟨fun h => .elements h.1 h.2, fun h => by cases h; exact ⟨‹_›, ‹_›⟩⟩)
    (fun m a h => ?_) b u
  · unfold ucanOfIpld at h
    split at h
    · exact .inl ⟨_, rfl⟩
    · exact .inr ⟨_, rfl⟩
    · cases h
  · cases h
    · exact .inl ⟨_, rfl⟩
    · exact .inr ⟨_, rfl⟩
  · cases h with
    | members h => exact not_reserved (by decide) h.signature

/-! ## Writing -/

/-- C75: the document that is written. -/
theorem C75_document (u : Ucan) : Codec.ucanJson u = ucanDoc u := by
  unfold Codec.ucanJson ucanDoc
  rw [C72_header_document, C72_payload_document]
  rw [ofList_of_mem (m := [("header", headerDoc u.header), ("payload", payloadDoc u.payload), ("signature", byteList u.signature),
    ("signed_data", byteList u.signedData)])]
  · refine (List.pairwise_map (f := Prod.fst) (R := fun a b => OrdKey.lt a b = true)).1 ?_
    show List.Pairwise (fun a b => OrdKey.lt a b = true) ["header", "payload", "signature", "signed_data"]
    decide +kernel
  · show List.Pairwise (· ≠ ·) ["header", "payload", "signed_data", "signature"]
    decide +kernel
  · intro e
    simp only [List.mem_cons, List.not_mem_nil, or_false]
    have : ∀ b, Codec.octetsJson b = byteList b := fun _ => rfl
    rw [this, this]
    grind

theorem numOk_octets (D : Deps) (b : Bytes) : Json.NumOk D (byteList b) := by
  simp only [byteList, Json.NumOk, Codec.numOkList_iff, List.mem_map]
  rintro e ⟨x, _, rfl⟩
  have := x.toNat_lt
  simp only [Json.NumOk]
  omega

theorem plain_octets (b : Bytes) : DagJson.Plain (byteList b) := by
  simp only [byteList, DagJson.Plain, Codec.plainList_iff, List.mem_map]
  rintro e ⟨x, _, rfl⟩
  trivial

/-- C75: the bytes that are written are a text of the document. -/
theorem C75_written (D : Deps) (u : Ucan) (hn : Json.NumOk D (payloadDoc u.payload)) : ValueText D (Codec.ucanBytes D u) (ucanDoc u) := by
  unfold Codec.ucanBytes
  rw [C75_document]
  exact C71_written D _ ⟨⟨trivial, trivial, trivial⟩, hn, numOk_octets D _, numOk_octets D _, trivial⟩

theorem depth_octets (b : Bytes) : (byteList b).depth ≤ 1 := by
  have : ∀ l : Bytes, Json.depthList (l.map fun x => .int x.toNat) = 0 := by
    intro l
    induction l with
    | nil => rfl
    | cons x l ih => simp [Json.depthList, Json.depth, ih]
  simp [byteList, Json.depth, this]

theorem depth_ucanDoc (u : Ucan) (n : Nat) (hn : 2 ≤ n) (h : (payloadDoc u.payload).depth ≤ n) : (ucanDoc u).depth ≤ n + 1 := by
  have h1 := depth_octets u.signature
  have h2 := depth_octets u.signedData
  have h3 : (headerDoc u.header).depth ≤ 1 := by simp [headerDoc, Json.depth, Json.depthMembers]
  simp only [ucanDoc, Json.depth, Json.depthMembers]
  omega

/-! ## Round trip -/

/-- C75: a UCAN survives, whatever its signed bytes are. -/
theorem C75_round_trip (D : Deps) (u : Ucan) (he : Codec.Encodable D u.payload) (hd : (payloadDoc u.payload).depth + 1 < Json.depthLimit) :
    Codec.ucanOfBytes D (Codec.ucanBytes D u) = some u := by
  have hp := Codec.payloadJson_ok D u.payload he
  rw [C72_payload_document] at hp
  have e := C75_document u
  unfold Codec.ucanOfBytes Codec.ucanBytes
  rw [DagJson.decode_print D, Option.bind_some]
  · have h1 := Codec.headerOfIpld_embed D u.header
    have h2 := Codec.payloadOfIpld_embed D u.payload he
    have h3 : ∀ b, Codec.asList Codec.asU8 (DagJson.embed (byteList b)) = some b := fun b =>
      (Codec.asOctets_iff (D := D) (DagJson.toIpld_plain D _ (plain_octets b)) b).2 rfl
    rw [C72_header_document] at h1
    rw [C72_payload_document] at h2
    rw [e, ucanDoc, DagJson.embed, Codec.ucanOfIpld, Codec.ucanOf]
    simp [Codec.get?_embedMembers, BMap.get?, Codec.reqVal, h1, h2, h3]
  · rw [e]
    exact ⟨⟨trivial, trivial, trivial⟩, hp.1, numOk_octets D _, numOk_octets D _, trivial⟩
  · rw [e]
    refine ⟨?_, ?_, ?_, hp.2, plain_octets _, plain_octets _, trivial⟩
    · refine (List.pairwise_map (f := Prod.fst) (R := fun a b => OrdKey.lt a b = true)).1 ?_
      show List.Pairwise (fun a b => OrdKey.lt a b = true) ["header", "payload", "signature", "signed_data"]
      decide +kernel
    · rintro (⟨s, hs⟩ | ⟨s, hs⟩) <;> simp at hs
    · refine ⟨?_, ?_, trivial, trivial, trivial⟩
      · refine (List.pairwise_map (f := Prod.fst) (R := fun a b => OrdKey.lt a b = true)).1 ?_
        show List.Pairwise (fun a b => OrdKey.lt a b = true) ["alg", "typ"]
        decide +kernel
      · rintro (⟨s, hs⟩ | ⟨s, hs⟩) <;> simp at hs
  · rw [e]
    have := depth_ucanDoc u 126 (by omega) (by simp only [Json.depthLimit] at hd; omega)
    simp only [Json.depthLimit]
    omega

/-- C75 for UCANs signed here. -/
theorem C75_signed (D : Deps) (s : Signable) (rnd : Bytes) (u : Ucan) (hs : SignableOk D s) (h : s.sign D rnd = .ok u)
    (hd : (payloadDoc u.payload).depth + 1 < Json.depthLimit) : Codec.ucanOfBytes D (Codec.ucanBytes D u) = some u :=
  C75_round_trip D u (encodable_of_signable hs (sign_ok h).1) hd

theorem depth_le_of (v : Json) : ∀ n, DepthLe v n → v.depth ≤ n := by
  have hl : ∀ (l : List Json) n, (∀ v ∈ l, v.depth ≤ n) → Json.depthList l ≤ n := by
    intro l n
    induction l with
    | nil => intro _; exact Nat.zero_le _
    | cons x l ih =>
      intro h
      have h1 := h x (List.mem_cons_self ..)
      have h2 := ih fun v hv => h v (List.mem_cons_of_mem _ hv)
      simp only [Json.depthList]; omega
  have hm : ∀ (l : List (String × Json)) n, (∀ e ∈ l, e.2.depth ≤ n) → Json.depthMembers l ≤ n := by
    intro l n
    induction l with
    | nil => intro _; exact Nat.zero_le _
    | cons x l ih =>
      obtain ⟨k, x⟩ := x
      intro h
      have h1 := h (k, x) (List.mem_cons_self ..)
      have h2 := ih fun v hv => h v (List.mem_cons_of_mem _ hv)
      simp only [Json.depthMembers]; simp only at h1; omega
  intro n h
  induction h with
  | null => simp [Json.depth]
  | bool => simp [Json.depth]
  | int => simp [Json.depth]
  | float => simp [Json.depth]
  | str => simp [Json.depth]
  | arr _ ih => have := hl _ _ ih; simp only [Json.depth]; omega
  | obj _ ih => have := hm _ _ ih; simp only [Json.depth]; omega

/-- C75: the limit is exact: a payload nested 127 deep is accepted in a token, but the UCAN written as a value is refused. -/
theorem C75_too_deep (D : Deps) (hD : D.jsonCheckEnd = true) (u : Ucan) (he : Codec.Encodable D u.payload)
    (hd : Json.depthLimit ≤ (payloadDoc u.payload).depth + 1) :
    Ucan.fromStr D (u.encode D) = .ok { u with signedData := Ucan.signingInput D u.header u.payload } ∧
      Codec.ucanOfBytes D (Codec.ucanBytes D u) = none := by
  refine ⟨Ucan.fromStr_encode D u he, ?_⟩
  have hp := (Codec.payloadJson_ok D u.payload he).1
  rw [C72_payload_document] at hp
  have ht := C75_written D u hp
  have : ¬ DepthLe (ucanDoc u) 127 := by
    intro h
    have := depth_le_of _ _ h
    simp only [ucanDoc, Json.depth, Json.depthMembers] at this
    simp only [Json.depthLimit] at hd
    omega
  have := C71_too_deep D hD (Codec.ucanBytes D u) _ (by simpa using ElementText.mk (w := []) (w' := []) (by simp [Ws]) ht (by simp [Ws])) this
  rw [Codec.ucanOfBytes, DagJson.decode, this]
  rfl

/-! ## What reading does not check -/

/-- C75 is violated: from any UCAN with a good signature anyone can write a document that is read as a UCAN of the same issuer with whatever header
and payload they like, and this UCAN is valid. -/
theorem C75_forged (D : Deps) (E : Env) (u : Ucan) (nowTime : Option UInt64) (w : World) (hc : Coherent w.parser)
    (ha : Authentic w.parser.ctors u) (h : Header) (p : Payload) (hi : p.iss = u.payload.iss) (hn : p.nbf = none)
    (hx : ∀ e, p.exp = some e → nowTime.getD (E.clock w.tick) ≤ e) (he : Codec.Encodable D p) (hd : (payloadDoc p).depth + 1 < Json.depthLimit) :
    ∃ b u', Codec.ucanOfBytes D b = some u' ∧ u'.header = h ∧ u'.payload = p ∧ (u'.validate E nowTime w).1 = .ok () := by
  refine ⟨_, ⟨h, p, u.signedData, u.signature⟩, C75_round_trip D ⟨h, p, u.signedData, u.signature⟩ he hd, rfl, rfl, ?_⟩
  rw [C12_validate_iff E _ nowTime w hc]
  refine ⟨hx, ?_, ?_⟩
  · intro n hn'
    rw [show p.nbf = none from hn] at hn'
    cases hn'
  · obtain ⟨key, h1, h2⟩ := ha
    exact ⟨key, by rw [show (Ucan.mk h p u.signedData u.signature).payload.iss = u.payload.iss from hi]; exact h1, h2⟩

/-- C75 is violated: and it makes a chain, with the forged claims as the issuer's own. -/
theorem C75_forged_chain (D : Deps) (E : Env) (u : Ucan) (nowTime : Option UInt64) (w : World) (hc : Coherent w.parser)
    (ha : Authentic w.parser.ctors u) (h : Header) (p : Payload) (hi : p.iss = u.payload.iss) (hn : p.nbf = none)
    (hx : ∀ e, p.exp = some e → nowTime.getD (E.clock w.tick) ≤ e) (he : Codec.Encodable D p) (hd : (payloadDoc p).depth + 1 < Json.depthLimit)
    (hp : p.prf = none) (hr : ∀ c ∈ p.cap.iter, c.ability ≠ "ucan/DELEGATE") (fuel : Nat) :
    ∃ b u', Codec.ucanOfBytes D b = some u' ∧ u'.payload = p ∧ (Chain.fromUcan D E nowTime fuel u' w).1 = .ok (.mk u' [] []) := by
  obtain ⟨b, u', h1, _, h3, h4⟩ := C75_forged D E u nowTime w hc ha h p hi hn hx he hd
  refine ⟨b, u', h1, h3, ?_⟩
  have hval : u'.validate E nowTime w = (.ok (), (u'.validate E nowTime w).2) := Prod.ext h4 rfl
  have hpr : u'.proofs = none := by unfold Ucan.proofs; rw [h3, hp]
  have hred : Chain.redelegations D 0 u' = .ok [] := by
    unfold Chain.redelegations Ucan.capabilities
    rw [h3, List.filterMap_eq_nil_iff.2 fun c hc => C19_other_ability D c (hr c hc)]
    rfl
  unfold Chain.fromUcan Chain.fromUcanWith
  show ((M.bind (u'.validate E nowTime) _) w).1 = _
  unfold M.bind
  rw [hval]
  simp only [hpr]
  show ((M.bind (M.lift (Chain.redelegations D 0 u')) _) _).1 = _
  rw [hred]
  rfl

/-- C75 (partial): what was written from a UCAN whose signed bytes say what it says is read as such a UCAN, so that C43 applies to it. The full
claim, for whatever is read, is refuted by `C75_forged`. -/
theorem C75_covered_partial (D : Deps) (u : Ucan) (hu : Covered D u) (he : Codec.Encodable D u.payload)
    (hd : (payloadDoc u.payload).depth + 1 < Json.depthLimit) : ∃ u', Codec.ucanOfBytes D (Codec.ucanBytes D u) = some u' ∧ Covered D u' :=
  ⟨u, C75_round_trip D u he hd, hu⟩

/-- C75 (partial): a reader who makes a token of what was read, and parses and validates that, is safe: what they accept has the content of a UCAN
that was signed, and it is the content that was read. -/
theorem C75_reparsed_partial (D : Deps) (E : Env) (nowTime : Option UInt64) (w : World) (hc : Coherent w.parser) (H : String → Bytes → Prop)
    (Signed : Ucan → Prop) (hf : Unforgeable w.parser.ctors H) (ho : OnlyUcans H Signed) (hs : ∀ u, Signed u → SignedHere D u) (u u' : Ucan)
    (he : Codec.Encodable D u.payload) (hp : Ucan.fromStr D (u.encode D) = .ok u') (hv : (u'.validate E nowTime w).1 = .ok ()) :
    ∃ v, Signed v ∧ v.header = u.header ∧ v.payload = u.payload := by
  obtain ⟨v, h1, h2, h3⟩ := C43_token D E nowTime w hc H Signed hf ho hs _ u' hp hv
  rw [Ucan.fromStr_encode D u he] at hp
  cases hp
  exact ⟨v, h1, h2, h3⟩

/-! ## Instances -/

namespace Ex75
open Ex

/-- Nested lists. -/
def nest : Nat → Json
  | 0 => .null
  | n + 1 => .arr [nest n]

theorem nest_depth (n : Nat) : (nest n).depth = n := by
  induction n with
  | zero => rfl
  | succ n ih => simp [nest, Json.depth, Json.depthList, ih, Nat.add_comm]

theorem nest_good (D : Deps) (n : Nat) : Codec.Good D (nest n) := by
  induction n with
  | zero => exact ⟨trivial, trivial, trivial⟩
  | succ n ih => exact ⟨⟨ih.1, trivial⟩, ⟨ih.2.1, trivial⟩, ⟨ih.2.2, trivial⟩⟩

/-- A payload with a fact nested 125 deep. -/
def deep : Payload := ⟨"0.10.0-canary", "did:key:zA", "did:key:zB", none, none, none, [], some [("f", nest 125)], none⟩

theorem deep_depth : (payloadDoc deep).depth = 127 := by
  simp [payloadDoc, deep, unlessNone, capDoc, Json.depth, Json.depthMembers, nest_depth]

theorem deep_encodable (D : Deps) : Codec.Encodable D deep := by
  refine ⟨List.Pairwise.nil, by simp [deep], by simp [deep], ?_, ?_⟩
  · intro f hf
    cases hf
    have := nest_good D 125
    refine ⟨⟨this.1, trivial⟩, ⟨by simp [BMap.Sorted], ?_, this.2.1, trivial⟩, ⟨this.2.2, trivial⟩⟩
    rintro (⟨s, hs⟩ | ⟨s, hs⟩) <;> simp at hs
  · rw [C72_payload_document, deep_depth]
    decide

/-- Beside `C75_too_deep`: there are such UCANs. -/
example (D : Deps) (hD : D.jsonCheckEnd = true) : ∃ u, (Ucan.fromStr D (u.encode D)).isOk = true ∧ Codec.ucanOfBytes D (Codec.ucanBytes D u) = none := by
  have := C75_too_deep D hD ⟨⟨"EdDSA", "JWT"⟩, deep, [], []⟩ (deep_encodable D) (by simp [deep_depth, Json.depthLimit])
  exact ⟨_, by rw [this.1]; rfl, this.2⟩

/-- Beside `C75_read`: text in another order, with an unknown member and blanks. -/
example : Codec.ucanOfBytes plainDeps (strBytes
      "{ \"signature\":[1, 255],\"x\":null,\"signed_data\":[],\"header\":[\"A\",\"B\"],\"payload\":{\"ucv\":\"v\",\"iss\":\"i\",\"aud\":\"a\",\"cap\":{}}}") =
    some ⟨⟨"A", "B"⟩, ⟨"v", "i", "a", none, none, none, [], none, none⟩, [], [1, 255]⟩ := by decide +kernel

/-- A number that is no byte is refused. -/
example : Codec.ucanOfBytes plainDeps (strBytes
      "{\"signature\":[256],\"signed_data\":[],\"header\":[\"A\",\"B\"],\"payload\":{\"ucv\":\"v\",\"iss\":\"i\",\"aud\":\"a\",\"cap\":{}}}") = none := by
  decide +kernel

/-- Beside `C75_document`: the text. -/
example : Codec.ucanBytes plainDeps ⟨⟨"A", "B"⟩, ⟨"v", "i", "a", none, none, none, [], none, none⟩, [7], [1, 255]⟩ = strBytes
    "{\"header\":{\"alg\":\"A\",\"typ\":\"B\"},\"payload\":{\"aud\":\"a\",\"cap\":{},\"exp\":null,\"iss\":\"i\",\"ucv\":\"v\"},\"signature\":[1,255],\"signed_data\":[7]}" := by
  decide +kernel

/-- What the toy key never signed. -/
def loot (iss : String) : Payload := ⟨"0.10.0-canary", iss, "did:key:zMallory", none, none, none, [("mailto:boss", [("msg/send", [.obj []])])], none, none⟩

theorem loot_encodable (D : Deps) (iss : String) : Codec.Encodable D (loot iss) := by
  have hg : Codec.Good D (.obj []) := ⟨trivial, ⟨List.Pairwise.nil, by rintro (⟨s, hs⟩ | ⟨s, hs⟩) <;> simp at hs, trivial⟩, trivial⟩
  refine ⟨by simp [loot, BMap.Sorted], by simp [loot, BMap.Sorted], ?_, by simp [loot], ?_⟩
  · intro r hr a ha c hc
    simp only [loot, List.mem_singleton] at hr
    subst hr
    simp only [List.mem_singleton] at ha
    subst ha
    simp only [List.mem_singleton] at hc
    subst hc
    exact hg
  · rw [C72_payload_document]
    simp [loot, payloadDoc, unlessNone, capDoc, Json.depth, Json.depthMembers, Json.depthList, Json.depthLimit]

/-- Beside `C75_forged_chain`: from the one UCAN the toy key signed, a chain with claims it never signed. -/
example (D : Deps) (rnd : Bytes) (fuel : Nat) : ∃ u, toySignable.sign D rnd = .ok u ∧ ∃ b u', Codec.ucanOfBytes D b = some u' ∧
    u'.payload = loot u.payload.iss ∧ (Chain.fromUcan D (stopped 7) none fuel u' ⟨0, ⟨toyCtors, []⟩⟩).1 = .ok (.mk u' [] []) := by
  obtain ⟨u, hu⟩ := toy_sign D rnd
  refine ⟨u, hu, ?_⟩
  obtain ⟨u', h1, h2⟩ := C42_ed25519 D toyScheme (7 : UInt8) (7 : UInt8) [7] (toy_exports 7) (toy_matches 7) toySignable rfl (toySignable_ok D) rnd u hu
    ⟨0, ⟨toyCtors, []⟩⟩ (DidParser.coherent_fresh _) rfl (stopped 7) 7 (fun _ => rfl)
  rw [C01_round_trip D _ rnd u (toySignable_ok D) hu] at h1
  cases h1
  have hv := h2.2 ⟨fun n hn => by cases hn; decide, fun e he => by cases he; decide⟩
  rw [C12_validate_iff _ _ _ _ (DidParser.coherent_fresh _)] at hv
  refine C75_forged_chain D (stopped 7) u none ⟨0, ⟨toyCtors, []⟩⟩ (DidParser.coherent_fresh _) hv.2.2 ⟨"EdDSA", "JWT"⟩ (loot u.payload.iss) rfl rfl
    (fun e he => by cases he) (loot_encodable D _) ?_ rfl ?_ fuel
  · simp [loot, payloadDoc, unlessNone, capDoc, Json.depth, Json.depthMembers, Json.depthList, Json.depthLimit]
  · intro c hc
    have : c = ⟨"mailto:boss", "msg/send", .obj []⟩ := by simpa [loot, Capabilities.iter] using hc
    rw [this]
    decide

end Ex75

end Verif
