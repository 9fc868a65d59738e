import Verif.Model.Chars
import Verif.Model.AlgCost
import Verif.Model.Cli
/-!
# Model of dandy/benches/benchmark.rs

The files that the benchmarks read, character by character, and the functions whose time they measure. criterion and the crate regex are not
modelled.
-/

namespace Dandy
namespace Bench

/-- dandy/benches/example_dfas/dfa0.txt:1-4. -/
def dfa0 : Str := c!"          a     b     e     d     c     f     \n    ggosc ggosc ggosc pxhd  pxhd  ggosc pxhd  \n→   ecwrp pxhd  ecwrp ecwrp ecwrp ggosc ecwrp \n  * pxhd  ggosc ecwrp ecwrp ecwrp pxhd  ecwrp "

/-- dandy/benches/example_dfas/dfa1.txt:1-18. -/
def dfa1 : Str := c!"           d      a      c      e      f      b      \n    nzqeo  efq    hguxl  vozpv  vozpv  njemhk wab    \n  * plobkg njemhk hguxl  tji    cdco   tji    aey    \n    tji    iwhv   uxk    suz    fuzgzc plobkg uxk    \n  * nijsy  iwhv   wab    njemhk hguxl  aey    iwhv   \n  * vozpv  vozpv  vozpv  uxk    hguxl  suz    iwhv   \n  * fuzgzc bppeer tji    aey    plobkg vozpv  bppeer \n→ * uxk    njemhk efq    vozpv  fuzgzc ahobm  nzqeo  \n  * bppeer uxk    plobkg bppeer hguxl  hguxl  nijsy  \n  * njemhk hguxl  nzqeo  plobkg njemhk nijsy  fuzgzc \n  * efq    vozpv  aey    fuzgzc vozpv  vozpv  ahobm  \n  * aey    uxk    ahobm  plobkg aey    wab    suz    \n    ahobm  cdco   bppeer wab    wab    efq    aey    \n  * iwhv   nzqeo  plobkg bppeer aey    bppeer tji    \n    cdco   ahobm  ahobm  bppeer hguxl  tji    wab    \n  * suz    iwhv   uxk    bppeer fuzgzc plobkg plobkg \n    wab    suz    iwhv   vozpv  nzqeo  vozpv  fuzgzc \n    hguxl  hguxl  bppeer plobkg bppeer hguxl  nzqeo  "

/-- dandy/benches/example_dfas/dfa2.txt:1-2. -/
def dfa2 : Str := c!"         e    b    a    d    c    f    \n→ * tlkk tlkk tlkk tlkk tlkk tlkk tlkk "

/-- dandy/benches/example_dfas/dfa3.txt:1-16. -/
def dfa3 : Str := c!"           c      b     a      e      f      d     \n    trzd   vkekn  vkekn ykd    ykd    apdh   ykd   \n  * apdh   wob    rua   atsv   euew   ykd    apdh  \n    psnoq  atsv   psnoq ecz    rua    clj    gex   \n  * ykd    clj    ykd   psnoq  pry    euew   wob   \n  * ecz    gex    gex   pry    pry    clj    ykd   \n    atsv   gex    psnoq trzd   zxgktr rua    rua   \n    pry    trzd   clj   wob    atsv   gex    ecz   \n  * zxgktr pry    atsv  wob    ecz    ecz    wob   \n    clj    pry    vkekn ykd    apdh   trzd   trzd  \n  * rua    gex    ykd   psnoq  vkekn  wob    atsv  \n    juzex  apdh   euew  apdh   rua    zxgktr gex   \n  * euew   trzd   juzex zxgktr rua    apdh   juzex \n→   gex    juzex  apdh  apdh   clj    apdh   wob   \n  * vkekn  zxgktr euew  gex    apdh   apdh   trzd  \n  * wob    gex    juzex trzd   vkekn  wob    vkekn "

/-- dandy/benches/example_dfas/dfa4.txt:1-4. -/
def dfa4 : Str := c!"          c      a      e      d      f     b      \n→  rakstg czx    rakstg rakstg rakstg czx   hqjdw  \n   czx    hqjdw  czx    czx    hqjdw  hqjdw rakstg \n   hqjdw  rakstg rakstg czx    czx    hqjdw rakstg "

/-- dandy/benches/example_dfas/dfa5.txt:1-18. -/
def dfa5 : Str := c!"           e      c      a      f      b      d      \n  * tjsp   huqcjz lxqeo  lgfk   hkq    xobwf  xobwf  \n    xobwf  mrh    izqqvo owd    owd    liqrvw mrh    \n  * mak    huqcjz lxqeo  huqcjz hkq    mak    zivo   \n  * zivo   qer    dyec   jkbg   mak    zivo   lxqeo  \n    lgfk   yfc    qer    huqcjz hkq    huqcjz liqrvw \n  * hkq    yfc    jkbg   tjsp   hkq    zivo   qer    \n  * lxqeo  jkbg   lxqeo  liqrvw hkq    mrh    mrh    \n→   jkbg   dyec   dyec   owd    cgjogd izqqvo tjsp   \n    owd    mak    tjsp   mak    xobwf  hkq    jkbg   \n    yfc    owd    izqqvo lxqeo  mrh    liqrvw lgfk   \n  * liqrvw huqcjz zivo   xobwf  mrh    izqqvo huqcjz \n    qer    zivo   zivo   lgfk   huqcjz dyec   mrh    \n  * mrh    mak    lxqeo  mak    yfc    yfc    lgfk   \n  * dyec   dyec   izqqvo qer    dyec   qer    mrh    \n  * cgjogd cgjogd jkbg   liqrvw tjsp   xobwf  izqqvo \n    izqqvo owd    cgjogd tjsp   mak    lxqeo  jkbg   \n    huqcjz hkq    liqrvw liqrvw qer    owd    jkbg   "

/-- dandy/benches/example_dfas/dfa6.txt:1-15. -/
def dfa6 : Str := c!"           b      c      f      e      d      a      \n  * maj    ercgsi ofyuvp fdlsww ozriw  mal    lhuv   \n  * mwud   lhuv   ufkxh  ercgsi ozriw  dxnj   lhuv   \n  * mal    ercgsi ofyuvp xbli   dxnj   ercgsi mal    \n  * gnn    mwud   ofwncb gnn    fdlsww dxnj   mal    \n    ozriw  ozriw  dxnj   ozriw  ofwncb ofyuvp lhuv   \n→   ofwncb ofyuvp ofwncb gnn    mwud   ozriw  ofyuvp \n    ercgsi ufkxh  ercgsi dxnj   ufkxh  dxnj   ozriw  \n  * ufkxh  zuke   fdlsww ozriw  ofyuvp lhuv   fdlsww \n  * fdlsww ofwncb fdlsww gnn    ozriw  ofwncb maj    \n  * lhuv   zuke   ofwncb dxnj   ofyuvp ozriw  ozriw  \n    dxnj   dxnj   ufkxh  ofyuvp maj    ozriw  fdlsww \n  * xbli   ufkxh  ofyuvp ofwncb fdlsww ufkxh  lhuv   \n    zuke   fdlsww ercgsi xbli   ofwncb ozriw  mwud   \n  * ofyuvp ofyuvp ozriw  dxnj   ofyuvp zuke   mal    "

/-- dandy/benches/example_dfas/dfa7.txt:1-4. -/
def dfa7 : Str := c!"         b    d    e     c     a    f     \n   qlbd  qlbd tqz  tqz   qlbd  qlbd tqz   \n   tqz   qlbd qlbd qlbd  dljba qlbd dljba \n→  dljba tqz  qlbd dljba dljba tqz  qlbd  "

/-- dandy/benches/example_dfas/dfa8.txt:1-15. -/
def dfa8 : Str := c!"           c      d      f      e      a      b      \n    bka    vebi   nfl    otaxk  otaxk  wxl    nfl    \n    nfl    vebi   yvyhsd dzc    zyjafv wxl    qrxerd \n  * ajupuu lgzifd ajupuu qrxerd wxl    wxl    usa    \n  * vebi   qrxerd bka    kymbq  wxl    usa    yvyhsd \n  * qrxerd yvyhsd nfl    bka    dzc    wxl    dzc    \n→ * kymbq  usa    tebyp  vebi   otaxk  otaxk  usa    \n    tebyp  qrxerd qrxerd zyjafv bka    dzc    lgzifd \n    usa    bka    dzc    lgzifd tebyp  dzc    yvyhsd \n  * lgzifd bka    vebi   tebyp  wxl    qrxerd dzc    \n  * zyjafv vebi   kymbq  bka    usa    nfl    ajupuu \n    yvyhsd bka    bka    vebi   tebyp  nfl    vebi   \n  * otaxk  usa    otaxk  lgzifd kymbq  lgzifd bka    \n    wxl    usa    usa    otaxk  zyjafv lgzifd bka    \n  * dzc    yvyhsd zyjafv ajupuu yvyhsd usa    usa    "

/-- dandy/benches/example_dfas/dfa9.txt:1-14. -/
def dfa9 : Str := c!"           d      f      e      b      c     a      \n    ioc    utvg   ggtfk  otenqb wdt    wdt   sreg   \n    hnjef  ioc    ibkj   hnjef  unhhh  ibkj  otenqb \n    ormf   ormf   mbwcun ibkj   hnjef  ormf  utvg   \n  * unhhh  wdt    utvg   hnjef  ibkj   hnjef wzbp   \n    mgv    ibkj   wzbp   ibkj   mbwcun wdt   hnjef  \n  * ggtfk  otenqb wzbp   wzbp   ormf   ibkj  ibkj   \n  * wdt    mgv    ormf   ggtfk  ormf   wzbp  mbwcun \n    sreg   mbwcun ibkj   ibkj   wdt    wzbp  mbwcun \n  * wzbp   mbwcun wdt    wdt    ggtfk  ibkj  sreg   \n  * mbwcun ioc    ibkj   ioc    ormf   hnjef ibkj   \n→   utvg   utvg   ggtfk  wzbp   hnjef  sreg  mgv    \n  * otenqb wdt    sreg   mbwcun unhhh  sreg  otenqb \n  * ibkj   mbwcun wzbp   ioc    unhhh  hnjef wzbp   "

/-- dandy/benches/example_regexes/regex0.txt:1. -/
def regex0 : Str := c!"g|j|b|l|n|n|i|a|c|d|n|c|r|q|f|e|e|k|a|h|h|i|e|d|k|d|f|p|q|k|y|k|j|p|q|l|n|a|c|b|n|q|j|j|(b)+|z|o"

/-- dandy/benches/example_regexes/regex1.txt:1. -/
def regex1 : Str := c!"(s)*|(m)+|p|y|s|(hlcwjsdmrbf)|h|h|(gjtgnbhiqr)|g|l|(gqmjxzzmf|m|t|p|x|o|z|i|u|n|t|b|m|i|f|f|z|p|lhbwxnykrr)|(yylevb)|f|w|e|n|j|q|p|n|f|l|d|n|b|o|h|c|x|z"

/-- dandy/benches/example_regexes/regex2.txt:1. -/
def regex2 : Str := c!"(o|n|z|n(usavyzu)fvo|v|b|e|i|w|i|r|p|p|p|o|i|vk)"

/-- dandy/benches/example_regexes/regex3.txt:1. -/
def regex3 : Str := c!"((o)+ce|i|k|a|m|y|t|u|e|g|j|k|n|p|z|s|l(l)+(wmdbzs)(lvebrd)vn)"

/-- dandy/benches/example_regexes/regex4.txt:1. -/
def regex4 : Str := c!"(aqskp)|v|m|t|o|n|t|f|o|l|a|v|k"

/-- dandy/benches/example_regexes/regex5.txt:1. -/
def regex5 : Str := c!"(e(lpczcatpghcdusqkd)(muoohxkppvteznlgo)(k)+xpm|o|u|mp|ra|v|y|p|f|s|e|h|i|x|y|c(q)+(cwvayjgxowy)(mctltd)(fqhywcss(pqwmtu)pdrsown)nob|p|f|h|y|h|p|c|z|h|(ikhpbjwdlvnhswey)|m|y|r|qc|l|i|s|g|j|l|w|a)"

/-- dandy/benches/example_regexes/regex6.txt:1. -/
def regex6 : Str := c!"v|t|w|w|t|u|m|w|o|c|z|i|b|r|z|g|(moblvpxmljcsudq)|k|t|z|h|g|w|t|g|q"

/-- dandy/benches/example_regexes/regex7.txt:1. -/
def regex7 : Str := c!"((lonxwqxifa))"

/-- dandy/benches/example_regexes/regex8.txt:1. -/
def regex8 : Str := c!"(mhr|z|p|e|d|j|e|y|l|h|c|s|bb(d)*s|c|g|x|o|u|i|b|n|l|l|s|n|j|u|w|dfx|y|u|w|s|h|g|g|d|p(t)+(zpik)ja|v|l|r|z|n|p|z|z(nsysitrg)(ftzcawxaet))"

/-- dandy/benches/example_regexes/regex9.txt:1. -/
def regex9 : Str := c!"((z)(t|n|v|m|a|w|t|w|c|t|v|g|s|a|p|e)+m(wyeci)(yvwqecbx)(m)+(cgysowshbt|a|g|z|s|t|o|p|s|n|h|r|o|c|n|h|c|jtoqkc)(u)+)"

/-- dandy/benches/benchmark.rs:13-21 `DFAS`. -/
def dfas : List Str := [dfa0, dfa1, dfa2, dfa3, dfa4, dfa5, dfa6, dfa7, dfa8, dfa9]

/-- dandy/benches/benchmark.rs:22-30 `REGEXES`. -/
def regexes : List Str := [regex0, regex1, regex2, regex3, regex4, regex5, regex6, regex7, regex8, regex9]

/-- dandy/benches/benchmark.rs:34-35, 49-50: `parser::dfa(..).unwrap().try_into().unwrap()`. `none`: panic. -/
def load (text : Str) : Option Dfa := do
  let p ← Fa.dfa text
  match Validate.dfa p with
  | .ok d => some d
  | .error _ => none

/-- dandy/benches/benchmark.rs:33-46 `powerset`: what the four measured calls return. `none`: panic. -/
def powerset (ord : List (Nat × Nat) → List (Nat × Nat)) : Option (List (Option Dfa)) := do
  let d1 ← load (← dfas[0]?)
  let d2 ← load (← dfas[1]?)
  return [← d1.union ord d2, ← d1.intersection ord d2, ← d1.difference ord d2, ← d1.symmetricDifference ord d2]

/-- dandy/benches/benchmark.rs:48-54 `equivalence_check`: what the measured call returns, and its work. `none`: panic. -/
def equivalenceCheck : Option (Bool × Nat) := do
  let d1 ← load (← dfas[0]?)
  let d2 ← load (← dfas[1]?)
  return (← d1.equivalentTo d2, d1.equivalentCost d2)

/-- dandy/benches/benchmark.rs:56-65 `regex_compile`, the part with dandy. `none`: panic. -/
def regexCompile (cl : Str → Nat) : Option Dfa := do
  let tree ← RegexParser.regex cl (← regexes[6]?)
  tree.toNfa.toDfa

/-- dandy/benches/benchmark.rs:75-83 `regex_check`, the part with dandy, for a string from the generator. `none`: panic. -/
def regexCheck (cl : Str → Nat) (seg : Str → List Str) (o : Cli.MinOrd) (t : Str) : Option Bool := do
  let regex ← regexCompile cl
  let regex ← regex.minimize o.u o.m o.k
  return regex.acceptsGraphemes seg t

end Bench
end Dandy
