import Verif.Model.Stream

/-!
# Lemmas on the stream operators
-/

namespace Verif.Stream

open Verif.Matrix2 Verif.QCirc Verif.Stab

theorem digit_toNat {d : ℕ} (h : d < 10) : (digit d).toNat = 48 + d := by
  interval_cases d <;> rfl

theorem value_append (a b : List Char) : value (a ++ b) = b.foldl (fun b c => b * 10 + (c.toNat - 48)) (value a) := by
  rw [value, List.foldl_append]; rfl

theorem value_digits (l : List ℕ) (h : ∀ d ∈ l, d < 10) : value (l.reverse.map digit) = Nat.ofDigits 10 l := by
  induction l with
  | nil => rfl
  | cons d l ih =>
    rw [List.reverse_cons, List.map_append, value_append, ih fun x hx => h x (by simp [hx])]
    simp [Nat.ofDigits_cons, digit_toNat (h d (by simp))]; ring

theorem value_dec (n : ℕ) : value (dec n) = n := by
  unfold dec
  split_ifs with h
  · subst h; rfl
  · rw [value_digits _ fun d hd => Nat.digits_lt_base (by norm_num) hd, Nat.ofDigits_digits]

theorem dec_digits (n : ℕ) : ∀ c ∈ dec n, 48 ≤ c.toNat ∧ c.toNat < 58 := by
  unfold dec
  split_ifs with h
  · intro c hc; obtain rfl := List.mem_singleton.1 hc; exact ⟨by decide, by decide⟩
  · intro c hc
    obtain ⟨d, hd, rfl⟩ := List.mem_map.1 hc
    have hd' : d < 10 := Nat.digits_lt_base (by norm_num) (List.mem_reverse.1 hd)
    rw [digit_toNat hd']; omega

theorem dec_ne (n : ℕ) : dec n ≠ [] := by
  unfold dec
  split_ifs with h
  · simp
  · simp [Nat.digits_ne_nil_iff_ne_zero, h]

theorem getSize_num {n : ℕ} (h : n < 2 ^ 64) (s : List Tok) : getSize (num n :: s) = some (n, s) := by
  show (if _ then _ else _) = _
  rw [if_pos ⟨dec_ne n, dec_digits n, by rwa [value_dec]⟩, value_dec]

theorem getBool_put (b : Bool) (s : List Tok) : getBool (putBool b :: s) = some (b, s) := by
  unfold getBool putBool
  rw [getSize_num (by split <;> norm_num)]
  cases b <;> simp

theorem step_mod (M b x : ℕ) (hc : 48 ≤ x ∧ x < 58) : (b % M * 10 % M + (x + 4294967296 - 48) % 4294967296) % M = (b * 10 + (x - 48)) % M := by
  obtain ⟨y, hy⟩ : ∃ y, y = (x + 4294967296 - 48) % 4294967296 := ⟨_, rfl⟩
  have e : y = x - 48 := by omega
  rw [← hy]
  subst e
  conv_rhs => rw [Nat.add_mod, Nat.mul_mod]
  simp
theorem foldl_mod (M : ℕ) (w : List Char) (h : ∀ c ∈ w, 48 ≤ c.toNat ∧ c.toNat < 58) :
    w.foldl (fun b c => (b * 10 % M + (c.toNat + 4294967296 - 48) % 4294967296) % M) 0 = w.foldl (fun b c => b * 10 + (c.toNat - 48)) 0 % M := by
  induction w using List.reverseRecOn with
  | nil => simp
  | append_singleton w c ih =>
    rw [List.foldl_append, List.foldl_append, ih fun x hx => h x (by simp [hx]), List.foldl_cons, List.foldl_nil, List.foldl_cons, List.foldl_nil]
    exact step_mod _ _ _ (h c (by simp))

theorem bci_value (w : List Char) (h : ∀ c ∈ w, 48 ≤ c.toNat ∧ c.toNat < 58) : bci w = value w % 2 ^ 128 := foldl_mod _ w h

theorem getBci_num {n : ℕ} (h : n < 2 ^ 128) (s : List Tok) : getBci (num n :: s) = some (n, s) := by
  show some (bci (dec n), s) = _
  rw [bci_value _ (dec_digits n), value_dec, Nat.mod_eq_of_lt h]

theorem bind_of {α β : Type} {a : Rd α} {f : α → Rd β} {s s' : List Tok} {x : α} (h : a s = some (x, s')) : (a.bind f) s = f x s' := by
  unfold Rd.bind; rw [h]; rfl

theorem rep_of {α β : Type} {a : Rd β} {put : α → List Tok} {f : α → β} {l : List α}
    (h : ∀ x ∈ l, ∀ s, a (put x ++ s) = some (f x, s)) (s : List Tok) :
    Rd.rep a l.length (l.flatMap put ++ s) = some (l.map f, s) := by
  induction l with
  | nil => rfl
  | cons x l ih =>
    rw [List.flatMap_cons, List.append_assoc]
    show (a.bind _) _ = _
    rw [bind_of (h x (by simp) _), bind_of (ih fun y hy => h y (by simp [hy]))]
    rfl

theorem rep_map {α β : Type} {a : Rd β} {put : α → Tok} {f : α → β} {l : List α}
    (h : ∀ x ∈ l, ∀ s, a (put x :: s) = some (f x, s)) (s : List Tok) :
    Rd.rep a l.length (l.map put ++ s) = some (l.map f, s) := by
  rw [← List.flatMap_singleton' (l.map put), List.flatMap_map]
  exact rep_of (put := fun x => [put x]) h s

theorem getMtrx_put (m : Mtrx) (s : List Tok) : getMtrx (putMtrx m ++ s) = some (m, s) := rfl

theorem insert_sorted {l : List ℕ} (h : l.Pairwise (· < ·)) {pre : List ℕ} (hp : ∀ a ∈ pre, ∀ b ∈ l, a < b) :
    l.foldl insertSet pre = pre ++ l := by
  induction l generalizing pre with
  | nil => simp
  | cons c l ih =>
    rw [List.foldl_cons]
    have hc : ∀ a ∈ pre, a < c := fun a ha => hp a ha c (by simp)
    have e : insertSet pre c = pre ++ [c] := by
      unfold insertSet
      rw [if_neg fun hm => absurd (hc c hm) (by omega)]
      clear ih hp
      induction pre with
      | nil => rfl
      | cons a pre ih2 =>
        rw [List.orderedInsert, if_neg (by have := hc a (by simp); omega), ih2 fun x hx => hc x (by simp [hx])]
        rfl
    rw [e, ih (List.pairwise_cons.1 h).2]
    · simp
    · intro a ha b hb
      rcases List.mem_append.1 ha with ha | ha
      · exact hp a ha b (by simp [hb])
      · obtain rfl := List.mem_singleton.1 ha
        exact (List.pairwise_cons.1 h).1 b hb

theorem get_none_of {m : PMap} {k : ℕ} (h : k ∉ m.map Prod.fst) : m.get k = none := by
  unfold PMap.get
  rw [List.lookup_eq_none_iff]
  intro p hp
  have : k ≠ p.1 := fun e => h (e ▸ List.mem_map_of_mem hp)
  simpa using this

theorem set_nodup {l : PMap} {pre : PMap} (h : ((pre ++ l).map Prod.fst).Nodup) : l.foldl PMap.set pre = pre ++ l := by
  induction l generalizing pre with
  | nil => simp
  | cons e l ih =>
    rw [List.foldl_cons]
    have e1 : PMap.set pre e = pre ++ [e] := by
      unfold PMap.set
      rw [get_none_of, Option.isSome_none, if_neg (by simp)]
      rw [List.map_append, List.nodup_append] at h
      exact fun hm => h.2.2 _ hm _ (by simp) rfl
    rw [e1, ih (by simpa using h)]
    simp

end Verif.Stream
