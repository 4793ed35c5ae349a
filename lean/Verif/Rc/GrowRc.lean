import Verif.Rc.Model

/-!
# Strings that grow in counted memory (`cee-resize.h`, str.c)

`cee_str_add`, `cee_str_catf` and `cee_str_replace` move a string that has become too long to another block (str.c:194, 221, 248).  The memory is that of
`Verif.Rc.Model`: the text is not modelled, only the counts and who holds what.  The chain is in `Verif.Chain` (`resizeMalloc`, `resizeRealloc`).
-/

namespace Verif.Rc
open Verif.Chain (upd)

/-- `S(resize)` with `CEE_RESIZE_WITH_MALLOC` (cee-resize.h:48-54), the default of strings (str.c:57, 92): `memcpy` copies the whole old block, with
`in_degree` and `retained`; the old one stays.  `b` is what `malloc` returned. -/
def growMalloc (h : RHeap) (a b : Nat) : Res RHeap :=
  if h.live a then
    .ok { live := upd h.live b true, kids := upd h.kids b (h.kids a), deg := upd h.deg b (h.deg a), ret := upd h.ret b (h.ret a) }
  else .ub

/-- `S(resize)` with `CEE_RESIZE_WITH_REALLOC` (cee-resize.h:42-47), after `cee_use_realloc`: the old block is freed unless it can grow where it is
(`b = a`). -/
def growRealloc (h : RHeap) (a b : Nat) : Res RHeap :=
  if h.live a then
    .ok { live := upd (upd h.live a false) b true, kids := upd h.kids b (h.kids a), deg := upd h.deg b (h.deg a), ret := upd h.ret b (h.ret a) }
  else .ub

end Verif.Rc
