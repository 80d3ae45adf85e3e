import Verif.Props.Url
import Verif.Props.Wildcard

/-! # Properties C82 and C98: URLs of special schemes; wildcards -/

namespace Verif
open Spec

namespace Url

/-! ## Hosts -/

theorem hexVal_lt (b : UInt8) : ∀ x, Ipv6.hexVal b = some x → x < 16 := by
  have : ∀ b : UInt8, (Ipv6.hexVal b).getD 0 < 16 := forall_uint8 (P := fun b => (Ipv6.hexVal b).getD 0 < 16) (by decide +kernel)
  intro x hx
  have := this b
  rw [hx] at this
  exact this

theorem percentDecode_keep {b : UInt8} {t : Bytes} (hno : ∀ h l r x y, b :: t = 37 :: h :: l :: r → Ipv6.hexVal h = some x → ¬ Ipv6.hexVal l = some y) :
    percentDecode (b :: t) = b :: percentDecode t := by
  by_cases hb : b = 37
  · subst hb
    match t, hno with
    | [], _ => rfl
    | [_], _ => rfl
    | h :: l :: r, hno =>
      rw [percentDecode]
      split
      · rename_i x y hx hy
        exact absurd hy (hno h l r x y rfl hx)
      · rfl
  · rw [percentDecode]
    exact fun _ _ _ h => absurd h hb

theorem percentDecode_escape {h l : UInt8} {x y : Nat} (hx : Ipv6.hexVal h = some x) (hy : Ipv6.hexVal l = some y) (t : Bytes) :
    percentDecode (37 :: h :: l :: t) = UInt8.ofNat (16 * x + y) :: percentDecode t := by
  rw [percentDecode, hx, hy]

theorem unescaped_self (n : Nat) : ∀ t : Bytes, t.length ≤ n → Unescaped t (percentDecode t) := by
  induction n with
  | zero =>
    intro t ht
    rw [List.eq_nil_of_length_eq_zero (Nat.le_zero.1 ht)]
    exact .nil
  | succ n ih =>
    intro t ht
    cases t with
    | nil => exact .nil
    | cons b t =>
      by_cases hno : ∀ h l r x y, b :: t = 37 :: h :: l :: r → Ipv6.hexVal h = some x → ¬ Ipv6.hexVal l = some y
      · rw [percentDecode_keep hno]
        refine .keep ?_ (ih t (by simpa using ht))
        intro h l r x y e hx hy
        exact hno h l r x y e ((Ipv6.hexVal_iff _ _).2 hx) ((Ipv6.hexVal_iff _ _).2 hy)
      · simp only [Classical.not_forall, Classical.not_not] at hno
        obtain ⟨h, l, r, x, y, e, hx, hy⟩ := hno
        rw [e] at ht ⊢
        rw [percentDecode_escape hx hy]
        refine .escape ((Ipv6.hexVal_iff _ _).1 hx) ((Ipv6.hexVal_iff _ _).1 hy) ?_ (ih r (by simp only [List.length_cons] at ht; omega))
        have h1 := hexVal_lt h x hx
        have h2 := hexVal_lt l y hy
        rw [UInt8.toNat_ofNat']
        omega

theorem unescaped_iff (t t' : Bytes) : Unescaped t t' ↔ t' = percentDecode t := by
  constructor
  · intro h
    induction h with
    | nil => rfl
    | @escape h l b x y t t' hx hy hb _ ih =>
      rw [percentDecode_escape ((Ipv6.hexVal_iff _ _).2 hx) ((Ipv6.hexVal_iff _ _).2 hy), ← ih, ← hb, UInt8.ofNat_toNat]
    | @keep b t t' hno _ ih =>
      rw [ih, percentDecode_keep]
      intro h l r x y e hx hy
      exact hno h l r x y e ((Ipv6.hexVal_iff _ _).1 hx) ((Ipv6.hexVal_iff _ _).1 hy)
  · rintro rfl
    exact unescaped_self t.length t (Nat.le_refl _)

theorem lower_iff (d low : Bytes) : LowerText d low ↔ low = d.map toLower := by
  have hb : ∀ x x' : UInt8, (Folds "" x x' ∨ (x = x' ∧ x ∉ strBytes "ABCDEFGHIJKLMNOPQRSTUVWXYZ")) ↔ x' = toLower x := by
    intro x x'
    rw [folds_iff]
    have h1 : ∀ x : UInt8, (x ∉ strBytes "ABCDEFGHIJKLMNOPQRSTUVWXYZ" → x = toLower x) ∧ (isAlpha x = false → x ∉ strBytes "ABCDEFGHIJKLMNOPQRSTUVWXYZ") :=
      forall_uint8 (P := fun x => (x ∉ strBytes "ABCDEFGHIJKLMNOPQRSTUVWXYZ" → x = toLower x) ∧ (isAlpha x = false → x ∉ strBytes "ABCDEFGHIJKLMNOPQRSTUVWXYZ"))
        (by decide +kernel)
    constructor
    · rintro (⟨_, h⟩ | ⟨rfl, h⟩)
      · exact h
      · exact (h1 x).1 h
    · rintro rfl
      cases ha : isAlpha x with
      | true => exact Or.inl ⟨rfl, rfl⟩
      | false => exact Or.inr ⟨(h1 x).1 ((h1 x).2 ha), (h1 x).2 ha⟩
  constructor
  · rintro ⟨hl, h⟩
    apply List.ext_getElem?
    intro i
    rw [List.getElem?_map]
    cases hd : d[i]? with
    | none =>
      rw [Option.map_none, List.getElem?_eq_none_iff, hl, ← List.getElem?_eq_none_iff]
      exact hd
    | some x =>
      cases hl' : low[i]? with
      | none =>
        rw [List.getElem?_eq_none_iff, hl, ← List.getElem?_eq_none_iff, hd] at hl'
        cases hl'
      | some x' => rw [(hb x x').1 (h i x x' hd hl')]; rfl
  · rintro rfl
    refine ⟨List.length_map .., ?_⟩
    intro i x x' hx hx'
    rw [List.getElem?_map, hx] at hx'
    cases hx'
    exact (hb _ _).2 rfl

theorem punycode_iff (l : Bytes) : Punycode l ↔ (l.map toLower).take 4 = [120, 110, 45, 45] := by
  have h1 : ∀ b : UInt8, (b ∈ strBytes "xX" ↔ toLower b = 120) ∧ (b ∈ strBytes "nN" ↔ toLower b = 110) ∧ (b = 45 ↔ toLower b = 45) :=
    forall_uint8 (P := fun b => (b ∈ strBytes "xX" ↔ toLower b = 120) ∧ (b ∈ strBytes "nN" ↔ toLower b = 110) ∧ (b = 45 ↔ toLower b = 45)) (by decide +kernel)
  constructor
  · rintro ⟨x, n, r, rfl, hx, hn⟩
    simp only [List.map_cons, List.take_succ_cons, List.take_zero]
    rw [((h1 x).1).1 hx, ((h1 n).2.1).1 hn]
    rfl
  · intro h
    match l, h with
    | x :: n :: a :: b :: r, h =>
      simp only [List.map_cons, List.take_succ_cons, List.take_zero, List.cons.injEq, and_true] at h
      obtain ⟨hx, hn, ha, hb⟩ := h
      rw [← (h1 a).2.2] at ha
      rw [← (h1 b).2.2] at hb
      subst ha; subst hb
      exact ⟨x, n, r, rfl, ((h1 x).1).2 hx, ((h1 n).2.1).2 hn⟩
    | [], h => simp at h
    | [_], h => simp at h
    | [_, _], h => simp at h
    | [_, _, _], h => simp at h

theorem isPlain_iff (d : Bytes) : isPlain d = true ↔ PlainDomain d := by
  unfold isPlain PlainDomain
  rw [Bool.and_eq_true, List.all_eq_true, List.all_eq_true]
  constructor
  · rintro ⟨h1, h2⟩
    refine ⟨fun b hb => ?_, fun ls hls l hl hp => ?_⟩
    · have := h1 b hb
      rw [decide_eq_true_iff, UInt8.lt_iff_toNat_lt] at this
      exact this
    · rw [(Ipv4.dotted_iff _ _).1 hls] at hl
      have := h2 l hl
      rw [bne_iff_ne] at this
      exact this ((punycode_iff l).1 hp)
  · rintro ⟨h1, h2⟩
    refine ⟨fun b hb => ?_, fun l hl => ?_⟩
    · rw [decide_eq_true_iff, UInt8.lt_iff_toNat_lt]
      exact h1 b hb
    · rw [bne_iff_ne]
      exact fun hp => h2 _ ((Ipv4.dotted_iff _ _).2 rfl) l hl ((punycode_iff l).2 hp)

theorem domainOf_iff (D : Deps) (raw d : Bytes) :
    domainOf D raw = some d ↔ ((PlainDomain raw ∧ LowerText raw d) ∨ (¬ PlainDomain raw ∧ D.idna raw = some d)) := by
  unfold domainOf
  split
  · rename_i h
    have h := (isPlain_iff raw).1 h
    rw [lower_iff, Option.some.injEq]
    constructor
    · exact fun e => Or.inl ⟨h, e.symm⟩
    · rintro (⟨_, e⟩ | ⟨hn, _⟩)
      · exact e.symm
      · exact absurd h hn
  · rename_i h
    have h : ¬ PlainDomain raw := fun hp => h ((isPlain_iff raw).2 hp)
    constructor
    · exact fun e => Or.inr ⟨h, e⟩
    · rintro (⟨hp, _⟩ | ⟨_, e⟩)
      · exact absurd hp h
      · exact e

theorem isForbiddenDomain_iff (b : UInt8) : isForbiddenDomain b = true ↔ ¬ (Visible b ∧ b ∉ strBytes "\x00\t\n\r #/:<>?@[\\]^|%") := by
  revert b
  exact forall_uint8 (P := fun b => isForbiddenDomain b = true ↔ ¬ (Visible b ∧ b ∉ strBytes "\x00\t\n\r #/:<>?@[\\]^|%"))
    (by unfold Visible; decide +kernel)

theorem forbidden_iff (h : Bytes) : h.any isForbiddenHost = false ↔ ∀ b ∈ h, b ∉ strBytes "\x00\t\n\r #/:<>?@[\\]^|" := by
  rw [List.any_eq_false]
  constructor
  · exact fun hh b hb hc => hh b hb ((isForbiddenHost_iff b).2 hc)
  · exact fun hh b hb hc => hh b hb ((isForbiddenHost_iff b).1 hc)

theorem forbiddenDomain_iff (d : Bytes) : d.any isForbiddenDomain = false ↔ ∀ b ∈ d, Visible b ∧ b ∉ strBytes "\x00\t\n\r #/:<>?@[\\]^|%" := by
  rw [List.any_eq_false]
  constructor
  · exact fun hh b hb => Classical.byContradiction fun hc => hh b hb ((isForbiddenDomain_iff b).2 hc)
  · exact fun hh b hb hc => (isForbiddenDomain_iff b).1 hc (hh b hb)

theorem domain_ascii {d : Bytes} (h : ∀ b ∈ d, Visible b ∧ b ∉ strBytes "\x00\t\n\r #/:<>?@[\\]^|%") : IsAscii d :=
  fun b hb => by
    have := (h b hb).1.2
    omega

theorem specialHost_iff (D : Deps) (h : Bytes) (s : String) : specialHost D h = some s ↔ SpecialHostText D.idna h s := by
  unfold specialHost
  split
  · rename_i hh
    rw [hostOf_iff]
    constructor
    · intro e
      cases e with
      | name hn _ =>
        cases h with
        | nil => cases hh
        | cons b t =>
          cases hh
          exact absurd (by decide +kernel) (hn 91 (by simp))
      | address hx hi => exact .address hx hi
    · have hn : ∀ d, ¬ DomainText D.idna h d := by
        rintro d ⟨hn, _⟩
        cases h with
        | nil => cases hh
        | cons b t =>
          cases hh
          exact absurd (by decide +kernel) (hn 91 (by simp))
      intro e
      cases e with
      | name hd _ => exact absurd hd (hn _)
      | numbers hd _ _ => exact absurd hd (hn _)
      | address hx hi => exact .address hx hi
  · rename_i hh
    have hdom : ∀ d, DomainText D.idna h d ↔ h.any isForbiddenHost = false ∧ domainOf D (percentDecode h) = some d ∧ d ≠ [] ∧ d.any isForbiddenDomain = false := by
      intro d
      unfold DomainText
      rw [forbidden_iff, forbiddenDomain_iff, domainOf_iff]
      constructor
      · rintro ⟨h1, raw, hu, h2, h3, h4⟩
        rw [(unescaped_iff _ _).1 hu] at h2
        exact ⟨h1, h2, h3, h4⟩
      · rintro ⟨h1, h2, h3, h4⟩
        exact ⟨h1, _, (unescaped_iff _ _).2 rfl, h2, h3, h4⟩
    constructor
    · intro e
      split at e
      · cases e
      · rename_i hf
        have hf : h.any isForbiddenHost = false := by simpa using hf
        split at e
        · cases e
        · rename_i d hd
          split at e
          · cases e
          · rename_i hno
            have hne : d ≠ [] := fun hc => hno (Or.inl hc)
            have hfd : d.any isForbiddenDomain = false := by
              cases hc : d.any isForbiddenDomain with
              | false => rfl
              | true => exact absurd (Or.inr hc) hno
            have hdt := (hdom d).2 ⟨hf, hd, hne, hfd⟩
            split at e
            · rename_i hnum
              exact .numbers hdt ((Ipv4.endsInNumber_iff d).1 hnum) ((Ipv4.normal_iff d s).1 e)
            · rename_i hnum
              have e := Option.some.inj e
              subst e
              have hb := strBytes_asciiStr (domain_ascii ((forbiddenDomain_iff d).1 hfd))
              refine .name (by rw [hb]; exact hdt) ?_
              rw [hb]
              exact fun hc => hnum ((Ipv4.endsInNumber_iff d).2 hc)
    · intro e
      cases e with
      | name hdt hnum =>
        obtain ⟨hf, hd, hne, hfd⟩ := (hdom _).1 hdt
        rw [hf, hd]
        simp only [Bool.false_eq_true, if_false]
        rw [if_neg, if_neg]
        · rw [((str_eq_iff (domain_ascii ((forbiddenDomain_iff _).1 hfd)) s).1 rfl).symm]
        · exact fun hc => hnum ((Ipv4.endsInNumber_iff _).1 hc)
        · rintro (hc | hc)
          · exact hne hc
          · rw [hfd] at hc; cases hc
      | @numbers _ d _ hdt hnum ha =>
        obtain ⟨hf, hd, hne, hfd⟩ := (hdom _).1 hdt
        rw [hf, hd]
        simp only [Bool.false_eq_true, if_false]
        rw [if_neg, if_pos ((Ipv4.endsInNumber_iff _).2 hnum)]
        · exact (Ipv4.normal_iff d s).2 ha
        · rintro (hc | hc)
          · exact hne hc
          · rw [hfd] at hc; cases hc
      | address => exact absurd rfl hh

theorem specialHost_at {idna : Bytes → Option Bytes} {h : Bytes} {s : String} (hh : SpecialHostText idna h s) : 64 ∉ h := by
  cases hh with
  | name hd _ => exact fun hm => hd.1 64 hm (by decide +kernel)
  | numbers hd _ _ => exact fun hm => hd.1 64 hm (by decide +kernel)
  | address hx hi => exact hostText_at (.address hx hi)

theorem splitHost_special {idna : Bytes → Option Bytes} {h r : Bytes} {s : String} (hh : SpecialHostText idna h s)
    (hr : r = [] ∨ ∃ p, r = 58 :: p) : splitHost false (h ++ r) = (h, r) := by
  cases hh with
  | name hd _ => refine splitHost_name (fun b hb => ⟨?_, ?_, ?_⟩) hr <;> (rintro rfl; exact hd.1 _ hb (by decide +kernel))
  | numbers hd _ _ => refine splitHost_name (fun b hb => ⟨?_, ?_, ?_⟩) hr <;> (rintro rfl; exact hd.1 _ hb (by decide +kernel))
  | address hx hi => exact splitHost_hostText (.address hx hi) hr

theorem specialAuthority_iff (D : Deps) (a : Bytes) (s user : String) (pw : Option String) (port : Option Nat) :
    (authorityOf (specialHost D) a = some s ∧ user = userOf a ∧ pw = passwordOf a ∧ port = portOf a) ↔
      AuthorityText (SpecialHostText D.idna) a s user pw port :=
  authorityOf_of (specialHost_iff D) (fun _ _ h => specialHost_at h) (fun _ _ _ h hr => splitHost_special h hr) a s user pw port

/-! ## Paths -/

theorem isSlash_iff (b : UInt8) : isSlash b = true ↔ b ∈ strBytes "/\\" := by
  revert b
  exact forall_uint8 (P := fun b => isSlash b = true ↔ b ∈ strBytes "/\\") (by decide +kernel)

theorem noSpecialMark_iff (b : UInt8) : (!isSlash b && isPathByte b) = true ↔ b ∉ strBytes "/\\?#" := by
  revert b
  exact forall_uint8 (P := fun b => (!isSlash b && isPathByte b) = true ↔ b ∉ strBytes "/\\?#") (by decide +kernel)

theorem mark_facts (b : UInt8) : (b ∉ strBytes "/\\?#" → b ∉ strBytes "/?#" ∧ upright b = b ∧ isPathByte b = true) ∧
    (b ∈ strBytes "/\\" → upright b = 47 ∧ isPathByte b = true) := by
  revert b
  exact forall_uint8 (P := fun b => (b ∉ strBytes "/\\?#" → b ∉ strBytes "/?#" ∧ upright b = b ∧ isPathByte b = true) ∧
    (b ∈ strBytes "/\\" → upright b = 47 ∧ isPathByte b = true)) (by decide +kernel)

theorem upright_self {s : Bytes} (h : NoSpecialMark s) : s.map upright = s := by
  induction s with
  | nil => rfl
  | cons b s ih =>
    rw [List.map_cons, ih fun x hx => h x (List.mem_cons_of_mem _ hx), ((mark_facts b).1 (h b (by simp))).2.1]

theorem slashes_upright {segs : List Bytes} {p : Bytes} (h : Slashes segs p) :
    p.map upright = slashed segs ∧ (∀ s ∈ segs, NoMark s) ∧ (∀ x ∈ p, isPathByte x = true) ∧ (∀ x ∈ p.head?, isSlash x = true) := by
  induction h with
  | nil => exact ⟨rfl, fun _ h => by (cases h), fun _ h => by (cases h), fun _ h => by (cases h)⟩
  | @cons b s segs r hb hs _ ih =>
    obtain ⟨h1, h2, h3, _⟩ := ih
    refine ⟨?_, ?_, ?_, ?_⟩
    · rw [List.map_cons, List.map_append, h1, upright_self hs, ((mark_facts b).2 hb).1]
      rfl
    · intro x hx
      rcases List.mem_cons.1 hx with rfl | hx
      · exact fun y hy => ((mark_facts y).1 (hs y hy)).1
      · exact h2 x hx
    · intro x hx
      rcases List.mem_cons.1 hx with rfl | hx
      · exact ((mark_facts _).2 hb).2
      · rcases List.mem_append.1 hx with hx | hx
        · exact ((mark_facts _).1 (hs x hx)).2.2
        · exact h3 x hx
    · intro x hx
      cases hx
      exact (isSlash_iff _).2 hb

theorem slashes_split (p : Bytes) (h : ∀ x ∈ p, isPathByte x = true) : ∃ s segs q, p = s ++ q ∧ NoSpecialMark s ∧ Slashes segs q := by
  induction p with
  | nil => exact ⟨[], [], [], rfl, fun _ h => by (cases h), .nil⟩
  | cons b p ih =>
    obtain ⟨s, segs, q, rfl, hs, hq⟩ := ih fun x hx => h x (List.mem_cons_of_mem _ hx)
    cases hb : isSlash b with
    | true => exact ⟨[], s :: segs, b :: (s ++ q), rfl, fun _ h => by (cases h), .cons ((isSlash_iff b).1 hb) hs hq⟩
    | false =>
      refine ⟨b :: s, segs, q, rfl, ?_, hq⟩
      intro x hx
      rcases List.mem_cons.1 hx with rfl | hx
      · exact (noSpecialMark_iff x).1 (by rw [hb, h x (by simp)]; rfl)
      · exact hs x hx

theorem slashes_of {p : Bytes} (h : ∀ x ∈ p, isPathByte x = true) (hh : ∀ x ∈ p.head?, isSlash x = true) : ∃ segs, Slashes segs p := by
  obtain ⟨s, segs, q, rfl, hs, hq⟩ := slashes_split p h
  cases s with
  | nil => exact ⟨segs, hq⟩
  | cons b s =>
    have h1 := (isSlash_iff b).1 (hh b rfl)
    exact absurd ((forall_uint8 (P := fun b => b ∈ strBytes "/\\" → b ∈ strBytes "/\\?#") (by decide +kernel)) b h1) (hs b (by simp))

theorem specialPath_iff {segs : List Bytes} {p : Bytes} (h : Slashes segs p) (path : String) :
    PathText (if segs = [] then [[]] else segs) (strBytes path) ↔ path = asciiStr (hierPath (47 :: (p.map upright).tail)) := by
  obtain ⟨h1, h2, _, _⟩ := slashes_upright h
  have hm : ∀ s ∈ (if segs = [] then [[]] else segs), NoMark s := by
    split
    · intro s hs x hx
      simp only [List.mem_cons, List.not_mem_nil, or_false] at hs
      subst hs
      cases hx
    · exact h2
  rw [pathText_iff hm, h1]
  have : slashed (if segs = [] then [[]] else segs) = 47 :: (slashed segs).tail := by
    cases segs with
    | nil => rfl
    | cons s segs => rfl
  rw [this]

theorem defaultPort_iff (sch : String) (n : Nat) : (sch, n) ∈ defaultPorts ↔ (Special sch ∧ sch ≠ "file") ∧ n = defaultPort sch := by
  unfold defaultPorts Special
  simp only [List.mem_cons, List.not_mem_nil, or_false, Prod.mk.injEq]
  constructor
  · rintro (⟨rfl, rfl⟩ | ⟨rfl, rfl⟩ | ⟨rfl, rfl⟩ | ⟨rfl, rfl⟩ | ⟨rfl, rfl⟩) <;> decide
  · rintro ⟨⟨h | h | h | h | h | h, hf⟩, rfl⟩
    · subst h; decide
    · subst h; decide
    · subst h; decide
    · subst h; decide
    · subst h; decide
    · exact absurd h hf

end Url

open Url

/-- A text is read as a URL of a special scheme other than `file` exactly if it is one, and what is read is what the URL Standard says. -/
theorem C82_special (D : Deps) (s : String) (u : Url) :
    (Url.parse D s = some u ∧ Special u.scheme ∧ u.scheme ≠ "file") ↔ ∃ t, Tidied (strBytes s) t ∧ SpecialText D.idna t u := by
  have hgoal : (∃ t, Tidied (strBytes s) t ∧ SpecialText D.idna t u) ↔ SpecialText D.idna ((trim (strBytes s)).filter fun b => !isTabNl b) u := by
    constructor
    · rintro ⟨t, h, hu⟩
      rw [tidied_iff] at h
      exact h ▸ hu
    · intro h
      exact ⟨_, (tidied_iff _ _).2 rfl, h⟩
  rw [hgoal]
  unfold Url.parse parseBytes
  generalize (trim (strBytes s)).filter (fun b => !isTabNl b) = t
  constructor
  · rintro ⟨h, hsp, hnf⟩
    split at h
    · cases h
    · rename_i sc rest hsc
      obtain ⟨raw, rfl, hraw⟩ := (splitScheme_iff _ _ _).1 hsc
      have hasc := strBytes_asciiStr (scheme_ascii hraw)
      simp only [] at h
      split at h
      · split at h
        · rename_i v hv
          have hu := Option.some.inj h
          have hscheme : u.scheme = asciiStr sc := by rw [← hu]
          rw [hscheme] at hsp hnf
          rw [if_pos ((special_iff _).2 hsp)] at hv
          unfold special at hv
          rw [if_neg hnf] at hv
          simp only [] at hv
          have e1 := List.takeWhile_append_dropWhile (p := isSlash) (l := rest)
          have hsl := takeWhile_all isSlash rest
          generalize rest.takeWhile isSlash = sl at *
          generalize rest.dropWhile isSlash = r at *
          have e2 := List.takeWhile_append_dropWhile (p := fun b => !isSlash b && isPathByte b) (l := r)
          have ha := takeWhile_all (fun b => !isSlash b && isPathByte b) r
          have hd := Url.dropWhile_head (fun b => !isSlash b && isPathByte b) r
          generalize r.takeWhile (fun b => !isSlash b && isPathByte b) = a at *
          generalize r.dropWhile (fun b => !isSlash b && isPathByte b) = t at *
          split at hv
          · cases hv
          · rename_i host hhost
            have hv := Option.some.inj hv
            have e3 := List.takeWhile_append_dropWhile (p := isPathByte) (l := t)
            have hp := takeWhile_all isPathByte t
            have hhead : ∀ x ∈ (t.takeWhile isPathByte).head?, isSlash x = true := by
              intro x hx
              cases t with
              | nil => cases hx
              | cons y t =>
                rw [List.takeWhile_cons] at hx
                split at hx
                · rename_i hy
                  cases hx
                  have := hd _ rfl
                  rw [hy, Bool.and_true] at this
                  simpa using this
                · cases hx
            have htl := Url.dropWhile_head isPathByte t
            generalize t.takeWhile isPathByte = p at *
            generalize t.dropWhile isPathByte = tail at *
            obtain ⟨segs, hsegs⟩ := slashes_of hp hhead
            refine ⟨raw, sl, a, segs, p, tail, defaultPort (asciiStr sc), portOf a, ?_, ?_, ?_, ?_, ?_, ?_, ?_, hsegs, ?_, ?_⟩
            · rw [← e1, ← e2, ← e3]; simp only [List.append_assoc]
            · rw [hscheme, hasc]; exact hraw
            · rw [hscheme]; exact (defaultPort_iff _ _).2 ⟨⟨hsp, hnf⟩, rfl⟩
            · exact fun b hb => (isSlash_iff b).1 (hsl b hb)
            · exact fun b hb => (noSpecialMark_iff b).1 (ha b hb)
            · rw [← hu, ← hv]
              exact (specialAuthority_iff D _ _ _ _ _).1 ⟨hhost, rfl, rfl, rfl⟩
            · rw [← hu, ← hv]
            · rw [← hu, ← hv]
              exact (specialPath_iff hsegs _).2 rfl
            · rw [← hu, ← hv]
              exact (tailText_of escaped_special_str _ htl _ _).2 rfl
        · cases h
      · rename_i hor
        have hu := Option.some.inj h
        have hscheme : u.scheme = asciiStr sc := by rw [← hu]; rfl
        rw [hscheme] at hsp
        exact absurd (Or.inl ((special_iff _).2 hsp)) hor
  · rintro ⟨raw, sl, a, segs, p, tail, n, port, rfl, hraw, hn, hsl, ha, hau, hport, hsegs, hpath, htail⟩
    obtain ⟨⟨hsp, hnf⟩, rfl⟩ := (defaultPort_iff _ _).1 hn
    refine ⟨?_, hsp, hnf⟩
    rw [(splitScheme_iff _ _ _).2 ⟨raw, rfl, hraw⟩]
    simp only []
    have hasc : asciiStr (strBytes u.scheme) = u.scheme := ((str_eq_iff (scheme_ascii hraw) _).1 rfl).symm
    have hm : u.scheme ∈ specials := (special_iff _).2 hsp
    rw [hasc, if_pos (Or.inl hm), if_pos hm, special, if_neg hnf]
    obtain ⟨_, _, hpp, hph⟩ := slashes_upright hsegs
    have hth := tailText_head htail
    have hne : a ≠ [] := by
      rintro rfl
      obtain ⟨us, h, pt, e, _, _, hh, hempty⟩ := hau
      have : h = [] := by
        have e := e.symm
        rw [List.append_eq_nil_iff, List.append_eq_nil_iff] at e
        exact e.1.2
      subst this
      cases hh with
      | name hd _ =>
        obtain ⟨_, r, hr, hor, hne, _⟩ := hd
        cases hr
        rcases hor with ⟨_, hl⟩ | ⟨hp, _⟩
        · exact hne (List.eq_nil_of_length_eq_zero (by simpa using hl.1))
        · exact hp ⟨fun _ h => by (cases h), fun ls hls l hl hpu => by
            rw [(Ipv4.dotted_iff _ _).1 hls] at hl
            simp only [Ipv4.splitDot, List.mem_cons, List.not_mem_nil, or_false] at hl
            subst hl
            obtain ⟨_, _, _, e, _⟩ := hpu
            cases e⟩
      | numbers hd _ _ =>
        obtain ⟨_, r, hr, hor, hne, _⟩ := hd
        cases hr
        rcases hor with ⟨_, hl⟩ | ⟨hp, _⟩
        · exact hne (List.eq_nil_of_length_eq_zero (by simpa using hl.1))
        · exact hp ⟨fun _ h => by (cases h), fun ls hls l hl hpu => by
            rw [(Ipv4.dotted_iff _ _).1 hls] at hl
            simp only [Ipv4.splitDot, List.mem_cons, List.not_mem_nil, or_false] at hl
            subst hl
            obtain ⟨_, _, _, e, _⟩ := hpu
            cases e⟩
    have f1 := takeWhile_of (p := isSlash) (a := sl) (b := a ++ p ++ tail) (fun x hx => (isSlash_iff x).2 (hsl x hx)) (by
      intro x hx
      cases a with
      | nil => exact absurd rfl hne
      | cons y a =>
        cases hx
        have := (noSpecialMark_iff _).2 (ha x (by simp))
        rw [Bool.and_eq_true] at this
        simpa using this.1)
    have f2 := takeWhile_of (p := fun b => !isSlash b && isPathByte b) (a := a) (b := p ++ tail) (fun x hx => (noSpecialMark_iff x).2 (ha x hx)) (by
      intro x hx
      cases p with
      | nil => rw [hth x hx, Bool.and_false]
      | cons y p =>
        cases hx
        rw [hph x rfl]
        rfl)
    have f3 := takeWhile_of hpp hth
    have g1 : (sl ++ a ++ p ++ tail).dropWhile isSlash = a ++ (p ++ tail) := by
      rw [← f1.2.trans (List.append_assoc ..)]
      simp only [List.append_assoc]
    simp only []
    rw [g1, f2.1, f2.2, f3.1, f3.2]
    obtain ⟨h1, h2, h3, h4⟩ := (specialAuthority_iff D _ _ _ _ _).2 hau
    rw [h1]
    simp only []
    rw [← (specialPath_iff hsegs _).1 hpath, ← (tailText_of escaped_special_str tail hth _ _).1 htail, ← h2, ← h3, ← h4, ← hport]

/-! ## Wildcards -/

namespace Url

theorem star_bytes : strBytes "*" = [42] := by decide +kernel

theorem escaped_star {path : Bytes} (h : Escaped Visible path [42]) : path = [42] := by
  cases h with
  | keep _ h => cases h; rfl

theorem slashed_not_star (segs : List Bytes) : slashed segs ≠ [42] := by
  intro h
  cases segs with
  | nil => cases h
  | cons s segs => exact absurd (List.cons.inj h).1 (by decide)

theorem pathText_not_star {segs : List Bytes} : ¬ PathText segs (strBytes "*") := by
  rw [star_bytes]
  rintro ⟨out, _, h⟩
  exact slashed_not_star out h.symm

theorem normalised_ne {p out : List Bytes} (h : Normalised p out) (hp : p ≠ []) : out ≠ [] := by
  obtain ⟨q, hq, ⟨_, rfl⟩ | ⟨hn, rfl⟩⟩ := h
  · simp
  · intro he
    cases hq with
    | root => exact hp rfl
    | down h => simp at he
    | stay _ hd => exact hn ⟨_, by rw [List.getLast?_concat], Or.inl hd⟩
    | up _ hd => exact hn ⟨_, by rw [List.getLast?_concat], Or.inr hd⟩
    | top _ hd => exact hn ⟨_, by rw [List.getLast?_concat], Or.inr hd⟩

theorem pathText_rooted {segs : List Bytes} (hne : segs ≠ []) {path : Bytes} (h : PathText segs path) : path.head? = some 47 := by
  obtain ⟨out, ⟨enc, he, hn⟩, rfl⟩ := h
  have : enc ≠ [] := by
    intro hc
    subst hc
    exact hne (List.eq_nil_of_length_eq_zero he.1.symm)
  cases out with
  | nil => exact absurd rfl (normalised_ne hn this)
  | cons s out => rfl

end Url

/-- C98 is violated: a special scheme has no wildcard. Whatever is read as a URL of such a scheme has a path that starts with a slash. -/
theorem C98_none (D : Deps) (s : String) (u : Url) (h : Url.parse D s = some u) (hs : Special u.scheme) (hf : u.scheme ≠ "file") :
    (strBytes u.path).head? = some 47 ∧ ¬ IsWildcard D s := by
  obtain ⟨t, _, raw, sl, a, segs, p, tail, n, port, _, _, _, _, _, _, _, _, hp, _⟩ := (C82_special D s u).1 ⟨h, hs, hf⟩
  have hh : (strBytes u.path).head? = some 47 := by
    refine pathText_rooted ?_ hp
    split
    · simp
    · assumption
  refine ⟨hh, ?_⟩
  rintro ⟨u', hu', hp'⟩
  rw [h] at hu'
  cases hu'
  rw [hp'] at hh
  revert hh
  decide +kernel

/-- C98 (partial): for schemes that are not special, the wildcards are the texts of the scheme, a colon and an asterisk, with space around them and with a
query and a fragment, which do not count. For special schemes the claim is refuted by `C98_none` and `C98_host`. -/
theorem C98_wildcards_partial (D : Deps) (s scheme : String) (hns : ¬ Special scheme) :
    (IsWildcard D s ∧ HasScheme D s scheme) ↔
      ∃ raw tail q f, Tidied (strBytes s) (raw ++ strBytes ":*" ++ tail) ∧ SchemeText raw (strBytes scheme) ∧ TailText QueryChar tail q f := by
  have hcol : strBytes ":*" = [58, 42] := by decide +kernel
  constructor
  · rintro ⟨⟨u, hu, hp⟩, ⟨u', hu', rfl⟩⟩
    rw [hu] at hu'
    cases hu'
    obtain ⟨t, ht, hut⟩ := (C82_reads D s u).1 ⟨hu, hns⟩
    cases hut with
    | @«opaque» raw path tail _ hraw _ _ _ _ hpath htail =>
      rw [hp, star_bytes] at hpath
      rw [escaped_star hpath] at ht
      refine ⟨raw, tail, _, _, ?_, hraw, htail⟩
      rw [hcol]
      simpa using ht
    | rooted _ _ _ _ _ _ hpath _ => rw [hp] at hpath; exact absurd hpath pathText_not_star
    | authority _ _ _ _ _ hpath _ => rw [hp] at hpath; exact absurd hpath pathText_not_star
  · rintro ⟨raw, tail, q, f, ht, hraw, htail⟩
    have hu := ((C82_reads D s ⟨scheme, "", "*", q, f, "", none, none⟩).2 ⟨_, ht, by
      rw [hcol]
      have : raw ++ [58, 42] ++ tail = raw ++ 58 :: ([42] ++ tail) := by simp
      rw [this]
      refine .opaque hraw hns (by decide) (by decide +kernel) ⟨rfl, rfl, rfl, rfl⟩ ?_ htail
      rw [star_bytes]
      exact .keep (by unfold Visible; decide) .nil⟩).1
    exact ⟨⟨_, hu, rfl⟩, ⟨_, hu, rfl⟩⟩

/-- With a special scheme, the text that is the wildcard of other schemes names a host. -/
theorem C98_host (D : Deps) (scheme : String) (hs : Special scheme) (hf : scheme ≠ "file") :
    Url.parse D (scheme ++ ":*") = some ⟨scheme, "*", "/", none, none, "", none, none⟩ := by
  have h1 : ∀ sch : String, sch ∈ ["http", "https", "ws", "wss", "ftp"] →
      Url.splitScheme ((Url.trim (strBytes (sch ++ ":*"))).filter fun b => !Url.isTabNl b) = some (strBytes sch, [42]) ∧ asciiStr (strBytes sch) = sch := by
    decide +kernel
  have hm : scheme ∈ ["http", "https", "ws", "wss", "ftp"] := by
    unfold Special at hs
    simp only [List.mem_cons, List.not_mem_nil, or_false] at hs ⊢
    rcases hs with h | h | h | h | h | h
    all_goals first
      | exact absurd h hf
      | (rw [h]; decide)
  have hh : specialHost D [42] = some "*" := by
    unfold specialHost
    have e1 : domainOf D (percentDecode [42]) = some [42] := by
      unfold domainOf
      rw [if_pos (by decide +kernel)]
      decide +kernel
    rw [if_neg (by decide), if_neg (by decide), e1]
    decide +kernel
  have ha : authorityOf (specialHost D) [42] = some "*" := by
    unfold authorityOf
    have e : splitHost false (hostPort [42]) = ([42], []) := by decide +kernel
    simp only [e]
    rw [if_neg (by decide), if_pos (by decide), hh]
  unfold Url.parse Url.parseBytes
  rw [(h1 scheme hm).1]
  simp only []
  rw [(h1 scheme hm).2, if_pos (Or.inl ((special_iff _).2 hs)), if_pos ((special_iff _).2 hs), special, if_neg hf]
  have e1 : ([42] : Bytes).dropWhile isSlash = [42] := by decide +kernel
  have e2 : ([42] : Bytes).takeWhile (fun b => !isSlash b && isPathByte b) = [42] := by decide +kernel
  have e3 : ([42] : Bytes).dropWhile (fun b => !isSlash b && isPathByte b) = [] := by decide +kernel
  simp only [e1, e2, e3, ha]
  have e4 : portOf [42] = none := by decide +kernel
  have e5 : userOf [42] = "" := by decide +kernel
  have e6 : passwordOf [42] = none := by decide +kernel
  have e7 : asciiStr (hierPath (47 :: (List.map upright (List.takeWhile isPathByte [])).tail)) = "/" := by decide +kernel
  rw [e4, e5, e6, e7]
  rfl

variable {S A : Type}

/-- What a claim on a resource of a special scheme stands for is up to the semantics; it never stands for everything. -/
theorem C98_claims (D : Deps) (sem : Semantics S A) (hd : sem.overridden = none) (c : Capability) (v : View S A) (h : sem.parseCapability D c = some v)
    (u : Url) (hu : Url.parse D c.resource = some u) (hs : Special u.scheme) (hf : u.scheme ≠ "file") :
    ∃ s, sem.parseScope u = some s ∧ v.resource = .resource (.scoped s) := by
  have hn := (C98_none D c.resource u hu hs hf).2
  obtain ⟨u', hu', hor⟩ := Semantics.parse_resource hd h
  rw [hu] at hu'
  cases hu'
  have hmy : u.scheme ≠ "my" := by rintro e; rw [e] at hs; revert hs; unfold Special; decide
  have has : u.scheme ≠ "as" := by rintro e; rw [e] at hs; revert hs; unfold Special; decide
  rcases hor with ⟨e, _⟩ | ⟨e, _⟩ | ⟨_, _, k, hk, e⟩
  · exact absurd e hmy
  · exact absurd e has
  · unfold Semantics.parseResource at hk
    rw [if_neg fun hp => hn ⟨u, hu, hp⟩] at hk
    obtain ⟨s, hs, rfl⟩ := Option.map_eq_some_iff.1 hk
    exact ⟨s, hs, e⟩

/-- C98 (partial): the wildcard of a scheme that is not special stands for everything, whatever the semantics makes of resources. -/
theorem C98_everything_partial (D : Deps) (sem : Semantics S A) (s scheme : String) (hns : ¬ Special scheme) (hm : scheme ≠ "my") (ha : scheme ≠ "as")
    (raw tail : Bytes) (q f : Option String) (ht : Tidied (strBytes s) (raw ++ strBytes ":*" ++ tail)) (hraw : SchemeText raw (strBytes scheme))
    (htail : TailText QueryChar tail q f) : sem.resourceOf D s = some (.resource .unscoped) ∧ ∀ r, (∃ k, r = .resource k) →
      (Resource.resource ResourceUri.unscoped).contains sem.contains r = true := by
  obtain ⟨⟨u, hu, hp⟩, ⟨u', hu', e⟩⟩ := (C98_wildcards_partial D s scheme hns).2 ⟨raw, tail, q, f, ht, hraw, htail⟩
  rw [hu] at hu'
  cases hu'
  refine ⟨?_, ?_⟩
  · unfold Semantics.resourceOf
    rw [hu]
    simp only []
    rw [if_neg (by rw [e]; exact hm), if_neg (by rw [e]; exact ha), Semantics.parseResource, if_pos hp]
    rfl
  · rintro r ⟨k, rfl⟩
    rfl

/-! ### Beside C82 and C98 -/

namespace Ex

example : Url.parse plainDeps " HTTPS:\\\\me:pw@EXAMPLE.%63om:443\\a/./b\\..?q='1'#f " =
      some ⟨"https", "example.com", "/a/", some "q=%271%27", some "f", "me", some "pw", none⟩ ∧
    Url.parse plainDeps "http:0x7f.1" = some ⟨"http", "127.0.0.1", "/", none, none, "", none, none⟩ ∧
    Url.parse plainDeps "http://[::1]:8080?x" = some ⟨"http", "[::1]", "/", some "x", none, "", none, some 8080⟩ ∧
    Url.parse plainDeps "ftp://a/x" = some ⟨"ftp", "a", "/x", none, none, "", none, none⟩ ∧
    Url.parse plainDeps "http://1.2.3.4.5/" = none ∧ Url.parse plainDeps "http://a%00/" = none ∧ Url.parse plainDeps "http://@a/" =
      some ⟨"http", "a", "/", none, none, "", none, none⟩ ∧
    Url.parse plainDeps "https://" = none := by decide +kernel

/-- There are texts of special schemes. -/
example : ∃ t, Tidied (strBytes "http://0x7f.1:81/a/../b") t ∧ SpecialText plainDeps.idna t ⟨"http", "127.0.0.1", "/b", none, none, "", none, some 81⟩ :=
  (C82_special plainDeps _ _).1 ⟨by decide +kernel, by unfold Special; decide, by decide⟩

/-- There are wildcards. -/
example : ∃ raw tail q f, Tidied (strBytes " MailTo:*?x ") (raw ++ strBytes ":*" ++ tail) ∧ SchemeText raw (strBytes "mailto") ∧ TailText QueryChar tail q f :=
  (C98_wildcards_partial plainDeps _ "mailto" (by unfold Special; decide)).1
    ⟨⟨⟨"mailto", "", "*", some "x", none, "", none, none⟩, by decide +kernel, rfl⟩, ⟨⟨"mailto", "", "*", some "x", none, "", none, none⟩, by decide +kernel, rfl⟩⟩

/-- Scopes are hosts. -/
def webSem : Semantics String Nat := { mailSem with parseScope := fun u => if u.scheme = "https" then some u.host else none, contains := fun a b => a == b }

/-- With such a semantics, `https:*` stands for a host named `*`, and for no other. -/
example : webSem.parseCapability plainDeps ⟨"https:*", "m/1", .obj []⟩ = some ⟨.resource (.scoped "*"), 1, .obj []⟩ ∧
    webSem.parseCapability plainDeps ⟨"https://a.com/", "m/1", .obj []⟩ = some ⟨.resource (.scoped "a.com"), 1, .obj []⟩ ∧
    webSem.enables ⟨.resource (.scoped "*"), 1, .obj []⟩ ⟨.resource (.scoped "a.com"), 1, .obj []⟩ = false := by decide +kernel

end Ex

end Verif
