import Verif.Model.JUnit
import Verif.Spec.Xml
import Verif.Proof.Process

namespace Joque

theorem xrun_append (s : XSt) (a b : Str) : xrun s (a ++ b) = (xrun s a).bind fun s' => xrun s' b := by
  induction a generalizing s with
  | nil => rfl
  | cons c cs ih =>
    show (xstep s c).bind _ = ((xstep s c).bind _).bind _
    cases xstep s c with
    | none => rfl
    | some s' => exact ih s'

theorem xrun_then {s s' : XSt} {a : Str} (b : Str) (h : xrun s a = some s') :
    xrun s (a ++ b) = xrun s' b := by
  rw [xrun_append, h]; rfl

/-- a name: a letter, then name characters -/
def isName : Str → Bool
  | [] => false
  | c :: cs => c.isAlpha && cs.all nameChar

theorem nameChar_not (c : Char) (h : nameChar c = true) : xmlWs c = false ∧ c ≠ '>' ∧ c ≠ '/' ∧ c ≠ '=' := by
  refine ⟨?_, ?_, ?_, ?_⟩
  · cases hw : xmlWs c with
    | false => rfl
    | true =>
      simp only [xmlWs, Bool.or_eq_true, decide_eq_true_eq] at hw
      rcases hw with ((rfl | rfl) | rfl) | rfl <;> exact absurd h (by decide)
  · rintro rfl; exact absurd h (by decide)
  · rintro rfl; exact absurd h (by decide)
  · rintro rfl; exact absurd h (by decide)

theorem xrun_tagName (st : List (Str × List (Str × Str) × List Xml)) (rt : List Xml) (l n : Str)
    (h : l.all nameChar = true) : xrun ⟨st, rt, .tag n⟩ l = some ⟨st, rt, .tag (n ++ l)⟩ := by
  induction l generalizing n with
  | nil => simp [xrun]
  | cons c cs ih =>
    simp only [List.all_cons, Bool.and_eq_true] at h
    obtain ⟨h1, h2, h3, _⟩ := nameChar_not c h.1
    have : xstep ⟨st, rt, .tag n⟩ c = some ⟨st, rt, .tag (n ++ [c])⟩ := by
      simp [xstep, h1, h2, h3, h.1]
    rw [xrun, this, Option.bind_some, ih _ h.2, List.append_assoc]; rfl

theorem xrun_closeName (st : List (Str × List (Str × Str) × List Xml)) (rt : List Xml) (l n : Str)
    (h : l.all nameChar = true) : xrun ⟨st, rt, .close n⟩ l = some ⟨st, rt, .close (n ++ l)⟩ := by
  induction l generalizing n with
  | nil => simp [xrun]
  | cons c cs ih =>
    simp only [List.all_cons, Bool.and_eq_true] at h
    obtain ⟨h1, h2, h3, _⟩ := nameChar_not c h.1
    have : xstep ⟨st, rt, .close n⟩ c = some ⟨st, rt, .close (n ++ [c])⟩ := by
      simp [xstep, h2, h.1]
    rw [xrun, this, Option.bind_some, ih _ h.2, List.append_assoc]; rfl

theorem xrun_keyName (st : List (Str × List (Str × Str) × List Xml)) (rt : List Xml) (n : Str)
    (as : List (Str × Str)) (l k : Str)
    (h : l.all nameChar = true) : xrun ⟨st, rt, .key n as k⟩ l = some ⟨st, rt, .key n as (k ++ l)⟩ := by
  induction l generalizing k with
  | nil => simp [xrun]
  | cons c cs ih =>
    simp only [List.all_cons, Bool.and_eq_true] at h
    obtain ⟨_, _, _, h4⟩ := nameChar_not c h.1
    have : xstep ⟨st, rt, .key n as k⟩ c = some ⟨st, rt, .key n as (k ++ [c])⟩ := by
      simp [xstep, h4, h.1]
    rw [xrun, this, Option.bind_some, ih _ h.2, List.append_assoc]; rfl

theorem xrun_value (st : List (Str × List (Str × Str) × List Xml)) (rt : List Xml) (n : Str)
    (as : List (Str × Str)) (k l v : Str) (h : XmlClean l) :
    xrun ⟨st, rt, .val n as k v⟩ l = some ⟨st, rt, .val n as k (v ++ l)⟩ := by
  induction l generalizing v with
  | nil => simp [xrun]
  | cons c cs ih =>
    obtain ⟨h1, h2, h3, h4⟩ := h c (by simp)
    have hw : (if xmlWs c = true then ' ' else c) = c := by
      cases hw : xmlWs c with
      | false => rfl
      | true =>
        simp only [xmlWs, Bool.or_eq_true, decide_eq_true_eq] at hw
        rcases hw with ((rfl | rfl) | rfl) | rfl
        · rfl
        · exact absurd h4 (by decide)
        · exact absurd h4 (by decide)
        · exact absurd h4 (by decide)
    have : xstep ⟨st, rt, .val n as k v⟩ c = some ⟨st, rt, .val n as k (v ++ [c])⟩ := by
      have h4' : ¬ c.toNat < 32 := by omega
      cases hb : xmlWs c with
      | false => simp only [xstep, h1, h2, h3, hb, h4', if_false]; rfl
      | true =>
        rw [hb, if_pos rfl] at hw
        simp only [xstep, h1, h2, h3, hb, if_false, if_true]; rw [hw]
    rw [xrun, this, Option.bind_some, ih _ (fun c hc => h c (List.mem_cons_of_mem _ hc)),
      List.append_assoc]; rfl

theorem xrun_attr (st : List (Str × List (Str × Str) × List Xml)) (rt : List Xml) (n : Str)
    (as : List (Str × Str)) (k v : Str) (hk : isName k = true) (hv : XmlClean v)
    (hnew : k ∉ as.map Prod.fst) :
    xrun ⟨st, rt, .inTag n as⟩ (attr k v) = some ⟨st, rt, .afterVal n (as ++ [(k, v)])⟩ := by
  cases k with
  | nil => exact absurd hk (by decide)
  | cons c cs =>
    simp only [isName, Bool.and_eq_true] at hk
    have hc : nameChar c = true := by simp [nameChar, hk.1]
    obtain ⟨h1, h2, h3, _⟩ := nameChar_not c hc
    have e1 : xstep ⟨st, rt, .inTag n as⟩ c = some ⟨st, rt, .key n as [c]⟩ := by
      simp [xstep, h1, h2, h3, hk.1]
    unfold attr
    simp only [List.append_assoc, List.cons_append]
    rw [xrun, e1, Option.bind_some, xrun_then _ (xrun_keyName st rt n as cs [c] hk.2)]
    have e2 : xrun ⟨st, rt, .key n as ([c] ++ cs)⟩ ['=', '"']
        = some ⟨st, rt, .val n as (c :: cs) []⟩ := by rfl
    have := xrun_then (v ++ ['"']) e2
    simp only [List.cons_append, List.nil_append] at this ⊢
    rw [this, xrun_then _ (xrun_value st rt n as (c :: cs) v [] hv)]
    simp only [xrun, xstep, List.nil_append, if_true, hnew, if_false, Option.bind_some]

/-- attributes after the first separator or a value -/
theorem xrun_attrs (st : List (Str × List (Str × Str) × List Xml)) (rt : List Xml) (n : Str)
    (as kvs : List (Str × Str)) (hk : ∀ p ∈ kvs, isName p.1 = true ∧ XmlClean p.2)
    (hnd : ((as ++ kvs).map Prod.fst).Nodup) :
    xrun ⟨st, rt, .afterVal n as⟩ (kvs.flatMap (fun p => [' '] ++ attr p.1 p.2))
      = some ⟨st, rt, .afterVal n (as ++ kvs)⟩ := by
  induction kvs generalizing as with
  | nil => simp [xrun]
  | cons p kvs ih =>
    obtain ⟨h1, h2⟩ := hk p (by simp)
    have hnew : p.1 ∉ as.map Prod.fst := by
      rw [List.map_append, List.nodup_append] at hnd
      intro h
      exact hnd.2.2 _ h _ (by simp) rfl
    rw [List.flatMap_cons, List.append_assoc]
    have e1 : xrun ⟨st, rt, .afterVal n as⟩ [' '] = some ⟨st, rt, .inTag n as⟩ := rfl
    rw [xrun_then _ e1, xrun_then _ (xrun_attr st rt n as p.1 p.2 h1 h2 hnew),
      ih (as ++ [(p.1, p.2)]) (fun q hq => hk q (List.mem_cons_of_mem _ hq)) (by simpa using hnd)]
    simp

theorem xrun_lt (st : List (Str × List (Str × Str) × List Xml)) (rt : List Xml) (n : Str)
    (hn : isName n = true) : xrun ⟨st, rt, .text⟩ (['<'] ++ n) = some ⟨st, rt, .tag n⟩ := by
  cases n with
  | nil => exact absurd hn (by decide)
  | cons c cs =>
    simp only [isName, Bool.and_eq_true] at hn
    have hc : nameChar c = true := by simp [nameChar, hn.1]
    obtain ⟨_, _, h3, _⟩ := nameChar_not c hc
    have hq : c ≠ '?' := by rintro rfl; exact absurd hc (by decide)
    have e1 : xrun ⟨st, rt, .text⟩ ['<', c] = some ⟨st, rt, .tag [c]⟩ := by
      simp [xrun, xstep, h3, hq, hn.1]
    have := xrun_then cs e1
    rw [xrun_tagName st rt cs [c] hn.2] at this
    exact this

theorem xrun_start (st : List (Str × List (Str × Str) × List Xml)) (rt : List Xml) (n : Str)
    (hn : isName n = true) (kvs : List (Str × Str)) (hne : kvs ≠ [])
    (hk : ∀ p ∈ kvs, isName p.1 = true ∧ XmlClean p.2) (hnd : (kvs.map Prod.fst).Nodup) :
    xrun ⟨st, rt, .text⟩ (['<'] ++ n ++ kvs.flatMap (fun p => [' '] ++ attr p.1 p.2))
      = some ⟨st, rt, .afterVal n kvs⟩ := by
  rw [xrun_then _ (xrun_lt st rt n hn)]
  cases kvs with
  | nil => exact absurd rfl hne
  | cons p kvs =>
    obtain ⟨h1, h2⟩ := hk p (by simp)
    rw [List.flatMap_cons, List.append_assoc]
    have e1 : xrun ⟨st, rt, .tag n⟩ [' '] = some ⟨st, rt, .inTag n []⟩ := rfl
    rw [xrun_then _ e1, xrun_then _ (xrun_attr st rt n [] p.1 p.2 h1 h2 (by simp)),
      xrun_attrs st rt n _ kvs (fun q hq => hk q (List.mem_cons_of_mem _ hq)) (by simpa using hnd)]
    rfl

theorem xrun_open (st : List (Str × List (Str × Str) × List Xml)) (rt : List Xml) (n : Str)
    (hn : isName n = true) (kvs : List (Str × Str)) (hne : kvs ≠ [])
    (hk : ∀ p ∈ kvs, isName p.1 = true ∧ XmlClean p.2) (hnd : (kvs.map Prod.fst).Nodup) :
    xrun ⟨st, rt, .text⟩ (xmlOpen n (kvs.map fun p => attr p.1 p.2))
      = some ⟨(n, kvs, []) :: st, rt, .text⟩ := by
  unfold xmlOpen
  rw [List.flatMap_map, xrun_then _ (xrun_start st rt n hn kvs hne hk hnd)]
  rfl

/-- an element without content -/
theorem xrun_empty (m : Str) (ma : List (Str × Str)) (ch : List Xml)
    (st : List (Str × List (Str × Str) × List Xml)) (rt : List Xml) (n : Str)
    (hn : isName n = true) (kvs : List (Str × Str)) (hne : kvs ≠ [])
    (hk : ∀ p ∈ kvs, isName p.1 = true ∧ XmlClean p.2) (hnd : (kvs.map Prod.fst).Nodup) :
    xrun ⟨(m, ma, ch) :: st, rt, .text⟩
      (['<'] ++ n ++ kvs.flatMap (fun p => [' '] ++ attr p.1 p.2) ++ ['/', '>', '\n'])
      = some ⟨(m, ma, ch ++ [.elem n kvs []]) :: st, rt, .text⟩ := by
  rw [xrun_then _ (xrun_start _ rt n hn kvs hne hk hnd)]
  rfl

theorem xrun_close (n : Str) (hn : isName n = true) (a : List (Str × Str)) (ch : List Xml)
    (st : List (Str × List (Str × Str) × List Xml)) (rt : List Xml) :
    xrun ⟨(n, a, ch) :: st, rt, .text⟩ (xmlClose n)
      = some (XSt.add ⟨st, rt, .text⟩ (.elem n a ch)) := by
  unfold xmlClose
  have hall : n.all nameChar = true := by
    cases n with
    | nil => rfl
    | cons c cs =>
      simp only [isName, Bool.and_eq_true] at hn
      have hc : nameChar c = true := by simp [nameChar, hn.1]
      simp [hc]; simpa using hn.2
  have e1 : xrun ⟨(n, a, ch) :: st, rt, .text⟩ ['<', '/'] = some ⟨(n, a, ch) :: st, rt, .close []⟩ := rfl
  rw [List.append_assoc, xrun_then _ e1, xrun_then _ (xrun_closeName _ rt n [] hall)]
  have e2 : xstep ⟨(n, a, ch) :: st, rt, .close ([] ++ n)⟩ '>'
      = some (XSt.add ⟨st, rt, .text⟩ (.elem n a ch)) := by
    simp only [xstep, List.nil_append, if_true]
    cases st <;> rfl
  rw [xrun, e2, Option.bind_some]
  cases st <;> rfl

/-- digits, signs and units are clean -/
theorem clean_digits (n : Nat) : XmlClean (showNat n) := by
  intro c hc
  have hd := Nat.isDigit_of_mem_toDigits (b := 10) (by decide) (by decide) hc
  refine ⟨?_, ?_, ?_, ?_⟩
  · rintro rfl; exact absurd hd (by decide)
  · rintro rfl; exact absurd hd (by decide)
  · rintro rfl; exact absurd hd (by decide)
  · simp only [Char.isDigit, Bool.and_eq_true, decide_eq_true_eq] at hd
    have := hd.1
    have h2 : (48 : UInt32).toNat ≤ c.val.toNat := this
    have : c.toNat = c.val.toNat := rfl
    rw [this]
    have h3 : (48 : UInt32).toNat = 48 := rfl
    omega

theorem clean_append {a b : Str} (ha : XmlClean a) (hb : XmlClean b) : XmlClean (a ++ b) := by
  intro c hc
  rcases List.mem_append.1 hc with h | h
  · exact ha c h
  · exact hb c h

theorem clean_showInt (t : Int) : XmlClean (showInt t) := by
  unfold showInt
  split
  · intro c hc
    rcases List.mem_cons.1 hc with rfl | h
    · decide
    · exact clean_digits _ c h
  · exact clean_digits _

end Joque
