# Modelled code

Every definition of the model that transcribes code, with the lines of /repo it cites (paths are relative to src/libscotch unless they say otherwise; line ranges without a file name refer to the file named in the header of the module).

## Arch/Domains.lean

* `Scotch.Arch.Tleaf.WF`: arch_tleaf.c:128–138
* `Scotch.Arch.Tleaf.WFL`: arch_tleaf.c:712–735

## Arch/Model.lean

* `Scotch.Arch.Cmplt.num`: arch_cmplt.c:249–255
* `Scotch.Arch.Cmplt.term`: arch_cmplt.c:265–279
* `Scotch.Arch.Cmplt.size`: arch_cmplt.c:285–291
* `Scotch.Arch.Cmplt.dist`: arch_cmplt.c:298–306
* `Scotch.Arch.Cmplt.frst`: arch_cmplt.c:316–325
* `Scotch.Arch.Cmplt.bipart`: arch_cmplt.c:387–403
* `Scotch.Arch.Cmplt.incl`: arch_cmplt.c:413–424
* `Scotch.Arch.Cmplt.domSave`: arch_cmplt.c:363–377
* `Scotch.Arch.Cmplt.domLoad`: arch_cmplt.c:334–354
* `Scotch.Arch.Cmpltw.buildStep`: arch_cmpltw.c:98–105
* `Scotch.Arch.Cmpltw.buildMerge`: arch_cmpltw.c:108–123
* `Scotch.Arch.Cmpltw.build3`: arch_cmpltw.c:78–129
* `Scotch.Arch.Cmpltw.build2`: arch_cmpltw.c:131–155
* `Scotch.Arch.Cmpltw.build`: arch_cmpltw.c:157–205
* `Scotch.Arch.Cmpltw.num`: arch_cmpltw.c:356–362
* `Scotch.Arch.Cmpltw.term`: arch_cmpltw.c:373–401
* `Scotch.Arch.Cmpltw.size`: arch_cmpltw.c:407–413
* `Scotch.Arch.Cmpltw.wght`: arch_cmpltw.c:419–425
* `Scotch.Arch.Cmpltw.dist`: arch_cmpltw.c:432–440
* `Scotch.Arch.Cmpltw.frst`: arch_cmpltw.c:450–460
* `Scotch.Arch.Cmpltw.bipartLoop`: arch_cmpltw.c:549–556
* `Scotch.Arch.Cmpltw.bipart`: arch_cmpltw.c:532–566
* `Scotch.Arch.Cmpltw.incl`: arch_cmpltw.c:576–587
* `Scotch.Arch.Hcub.archAccepts`: arch_hcub.c:104–109
* `Scotch.Arch.Hcub.num`: arch_hcub.c:220–226
* `Scotch.Arch.Hcub.term`: arch_hcub.c:236–250
* `Scotch.Arch.Hcub.size`: arch_hcub.c:256–262
* `Scotch.Arch.Hcub.onesLoop`: arch_hcub.c:286–289
* `Scotch.Arch.Hcub.dist`: arch_hcub.c:268–292
* `Scotch.Arch.Hcub.frst`: arch_hcub.c:302–311
* `Scotch.Arch.Hcub.bipart`: arch_hcub.c:367–383
* `Scotch.Arch.Hcub.incl`: arch_hcub.c:393–404
* `Scotch.Arch.Tleaf.Arch`: src/libscotch/arch_tleaf.h:81–89
* `Scotch.Arch.Tleaf.Dom`: arch_tleaf.h:91–95
* `Scotch.Arch.Tleaf.sizeFrom`: arch_tleaf.c:373–375, 424–426, 794–796
* `Scotch.Arch.Tleaf.num`: arch_tleaf.c:365–378
* `Scotch.Arch.Tleaf.term`: arch_tleaf.c:388–410
* `Scotch.Arch.Tleaf.size`: arch_tleaf.c:416–429
* `Scotch.Arch.Tleaf.climb`: arch_tleaf.c:464–468
* `Scotch.Arch.Tleaf.climb2`: arch_tleaf.c:489–500
* `Scotch.Arch.Tleaf.distSame`: arch_tleaf.c:480–502
* `Scotch.Arch.Tleaf.dist`: arch_tleaf.c:436–503
* `Scotch.Arch.Tleaf.frst`: arch_tleaf.c:513–523
* `Scotch.Arch.Tleaf.bipartRange`: arch_tleaf.c:591–607
* `Scotch.Arch.Tleaf.bipart`: arch_tleaf.c:582–614
* `Scotch.Arch.Tleaf.climbIncl`: arch_tleaf.c:649–652
* `Scotch.Arch.Tleaf.overlap`: arch_tleaf.c:658–659
* `Scotch.Arch.Tleaf.incl`: arch_tleaf.c:624–660
* `Scotch.Arch.Tleaf.numL`: arch_tleaf.c:784–802
* `Scotch.Arch.Tleaf.termL`: arch_tleaf.c:812–838
* `Scotch.Arch.Tleaf.opsL`: arch_tleaf.h:141–158
* `Scotch.Arch.Mesh.Dom`: src/libscotch/arch_mesh.h:90–92
* `Scotch.Arch.Mesh.numX`: arch_mesh.c:837–849
* `Scotch.Arch.Mesh.termLoop`: arch_mesh.c:868–872
* `Scotch.Arch.Mesh.termX`: arch_mesh.c:859–878
* `Scotch.Arch.Mesh.sizeX`: arch_mesh.c:884–896
* `Scotch.Arch.Mesh.wrap`: arch_mesh.c:914–916; arch_torus.c:102–104, 172–174
* `Scotch.Arch.Mesh.distX`: arch_mesh.c:903–920; arch_torus.c:160–178
* `Scotch.Arch.Mesh.frstX`: arch_mesh.c:930–943
* `Scotch.Arch.Mesh.bestStep`: arch_mesh.c:1034–1046
* `Scotch.Arch.Mesh.bestDim`: arch_mesh.c:1022–1047
* `Scotch.Arch.Mesh.splitAt`: arch_mesh.c:1052–1054
* `Scotch.Arch.Mesh.bipartX`: arch_mesh.c:1008–1057
* `Scotch.Arch.Mesh.inclX`: arch_mesh.c:1067–1082
* `Scotch.Arch.Mesh.num2`: arch_mesh.c:162–168
* `Scotch.Arch.Mesh.term2`: arch_mesh.c:178–194
* `Scotch.Arch.Mesh.size2`: arch_mesh.c:200–207
* `Scotch.Arch.Mesh.centre`: arch_mesh.c:221–222
* `Scotch.Arch.Mesh.dist2`: arch_mesh.c:215–225
* `Scotch.Arch.Mesh.dim2`: arch_mesh.c:251–254
* `Scotch.Arch.Mesh.bipart2`: arch_mesh.c:235–274
* `Scotch.Arch.Mesh.incl2`: arch_mesh.c:347–360
* `Scotch.Arch.Mesh.num3`: arch_mesh.c:434–442
* `Scotch.Arch.Mesh.term3`: arch_mesh.c:452–470
* `Scotch.Arch.Mesh.size3`: arch_mesh.c:476–484
* `Scotch.Arch.Mesh.dist3`: arch_mesh.c:491–503
* `Scotch.Arch.Mesh.dim3`: arch_mesh.c:531–539
* `Scotch.Arch.Mesh.bipart3`: arch_mesh.c:513–579
* `Scotch.Arch.Mesh.incl3`: arch_mesh.c:589–604
* `Scotch.Arch.Mesh.torusDist2`: arch_torus.c:93–111
* `Scotch.Arch.Mesh.torusDist3`: arch_torus.c:124–146
* `Scotch.Arch.Var.level`: arch_vcmplt.c:124; arch_vhcub.c:106
* `Scotch.Arch.Var.num`: arch_vcmplt.c:94–100
* `Scotch.Arch.Var.term`: arch_vcmplt.c:110–131; arch_vhcub.c:92–113
* `Scotch.Arch.Var.distC`: arch_vcmplt.c:149–156
* `Scotch.Arch.Var.ones`: arch_vhcub.c:152–153
* `Scotch.Arch.Var.distH`: arch_vhcub.c:131–156
* `Scotch.Arch.Var.frst`: arch_vcmplt.c:166–175
* `Scotch.Arch.Var.bipart`: arch_vcmplt.c:234–247; arch_vhcub.c:234–247
* `Scotch.Arch.Var.incl`: arch_vcmplt.c:257–268

## Arch/ModelDeco.lean

* `Scotch.Deco.TermVert`: arch_deco.h:89–93
* `Scotch.Deco.place`: arch_deco.h:157–158
* `Scotch.Deco.distE`: arch_deco.h:159
* `Scotch.Deco.setTerm`: arch_deco.c:145–147
* `Scotch.Deco.gather`: arch_deco.c:152–158
* `Scotch.Deco.accum`: arch_deco.c:151–158
* `Scotch.Deco.setDists`: arch_deco.c:170–171
* `Scotch.Deco.avg4`: arch_deco.c:182–185
* `Scotch.Deco.avg2`: arch_deco.c:187–188, 192–193
* `Scotch.Deco.setDist`: arch_deco.c:178–203
* `Scotch.Deco.setRow`: arch_deco.c:175–204
* `Scotch.Deco.build`: arch_deco.c:99–208
* `Scotch.Deco.num`: arch_deco.c:437–443
* `Scotch.Deco.termStep`: arch_deco.c:462–471
* `Scotch.Deco.term`: arch_deco.c:453–474
* `Scotch.Deco.size`: arch_deco.c:480–486
* `Scotch.Deco.wght`: arch_deco.c:492–498
* `Scotch.Deco.dist`: arch_deco.c:505–512
* `Scotch.Deco.bipart`: arch_deco.c:585–599
* `Scotch.Deco.incl`: arch_deco.c:609–623
* `Scotch.Deco.ops`: arch_deco.c:522–530

## Arch/ModelMatch.lean

* `Scotch.Arch.Multi`: src/libscotch/arch.h:108–110
* `Scotch.Arch.putOne`: arch_cmplt.c:215–217, 224–226; arch_tleaf.c:333–335, 343–345
* `Scotch.Arch.putTwo`: arch_cmplt.c:220–221; arch_hcub.c:205–206; arch_tleaf.c:338–340
* `Scotch.Arch.Cmplt.Match`: arch_cmplt.h:90–94
* `Scotch.Arch.Cmplt.matchInit`: arch_cmplt.c:152–170
* `Scotch.Arch.Cmplt.matchMate`: arch_cmplt.c:192–242
* `Scotch.Arch.Hcub.Match`: arch_hcub.h:87–90
* `Scotch.Arch.Hcub.matchInit`: arch_hcub.c:151–167
* `Scotch.Arch.Hcub.matchMate`: arch_hcub.c:189–213
* `Scotch.Arch.Tleaf.Match`: arch_tleaf.h:97–105
* `Scotch.Arch.Tleaf.matchInit`: arch_tleaf.c:229–259
* `Scotch.Arch.Tleaf.matchLevel`: arch_tleaf.c:295–306
* `Scotch.Arch.Tleaf.matchBlock`: arch_tleaf.c:330–346
* `Scotch.Arch.Tleaf.matchMate`: arch_tleaf.c:281–358
* `Scotch.Arch.Mesh.Match`: arch_mesh.h:93–101
* `Scotch.Arch.Mesh.matchInit`: arch_mesh.c:704–731
* `Scotch.Arch.Mesh.matchDim`: arch_mesh.c:773–779
* `Scotch.Arch.Mesh.pairPut`: arch_mesh.c:803–812
* `Scotch.Arch.Mesh.pairStep`: arch_mesh.c:803–817
* `Scotch.Arch.Mesh.matchMate`: arch_mesh.c:753–830

## Arch/ModelSub.lean

* `Scotch.Arch.Sub.STree`: arch_sub.h:85–91
* `Scotch.Arch.Sub.sonOf`: arch_sub.c:259, 271–272
* `Scotch.Arch.Sub.coarNode`: arch_sub.c:253–280
* `Scotch.Arch.Sub.build2`: arch_sub.c:212–288
* `Scotch.Arch.Sub.Data`: arch_sub.h:63–70
* `Scotch.Arch.Sub.Term`: arch_sub.h:58–61
* `Scotch.Arch.Sub.build3`: arch_sub.c:297–349
* `Scotch.Arch.Sub.Arch`: arch_sub.h:72–78
* `Scotch.Arch.Sub.outNode`: arch_sub.c:430–435
* `Scotch.Arch.Sub.keepStep`: arch_sub.c:444–475
* `Scotch.Arch.Sub.build`: arch_sub.c:359–507
* `Scotch.Arch.Sub.orgTerm`: arch_sub.c:723–724
* `Scotch.Arch.Sub.dist`: arch_sub.c:714–727
* `Scotch.Arch.Sub.incl`: arch_sub.c:827–841
* `Scotch.Arch.Sub.ops`: arch_sub.c:655–661
* `Scotch.Arch.Sub.Match`: arch_sub.h:97–104
* `Scotch.Arch.Sub.matchInit`: arch_sub.c:518–554
* `Scotch.Arch.Sub.mateOne`: arch_sub.c:589–597
* `Scotch.Arch.Sub.mateTwo`: arch_sub.c:605–623
* `Scotch.Arch.Sub.mate2`: arch_sub.c:576–629
* `Scotch.Arch.Sub.matchMate`: arch_sub.c:631–649

## Arch/Spec.lean

* `Scotch.ArchOps`: src/libscotch/arch.h:152–172

## ArchIO/Model.lean

* `Scotch.ArchIO.DecoVert`: src/libscotch/arch_deco.h:97–101
* `Scotch.ArchIO.Deco`: src/libscotch/arch_deco.h:103–109
* `Scotch.ArchIO.Class`: arch.c:102–119
* `Scotch.ArchIO.classTab`: arch.c:102–119
* `Scotch.ArchIO.archClass`: arch.c:257–277
* `Scotch.ArchIO.cmpltwPiece`: arch_cmpltw.c:301–313
* `Scotch.ArchIO.cmpltwSave`: arch_cmpltw.c:278–322
* `Scotch.ArchIO.tleafSave`: arch_tleaf.c:182–218
* `Scotch.ArchIO.ltleafSave`: arch_tleaf.c:747–777
* `Scotch.ArchIO.mesh2Save`: arch_mesh.c:134–155
* `Scotch.ArchIO.mesh3Save`: arch_mesh.c:407–427
* `Scotch.ArchIO.meshXSave`: arch_mesh.c:658–693
* `Scotch.ArchIO.decoSave`: arch_deco.c:382–430
* `Scotch.ArchIO.Class.name`: arch.c:102–118
* `Scotch.ArchIO.archSave`: arch.c:229–247; arch_cmplt.c:122–141; arch_hcub.c:121–140; arch_sub.c:135–173; arch_dist.c:109–128
* `Scotch.ArchIO.cmpltwLoad`: arch_cmpltw.c:214–269
* `Scotch.ArchIO.tleafLoad`: arch_tleaf.c:99–141
* `Scotch.ArchIO.permLoad`: arch_tleaf.c:686–738
* `Scotch.ArchIO.ltleafLoad`: arch_tleaf.c:676–738
* `Scotch.ArchIO.mesh2Load`: arch_mesh.c:103–125
* `Scotch.ArchIO.mesh3Load`: arch_mesh.c:376–398
* `Scotch.ArchIO.meshXLoad`: arch_mesh.c:619–649
* `Scotch.ArchIO.decoLoad`: arch_deco.c:218–342
* `Scotch.ArchIO.orFree`: arch.c:212–217
* `Scotch.ArchIO.orCrash`: arch.c:212–217
* `Scotch.ArchIO.subLoad`: arch_sub.c:72–126; arch.c:214
* `Scotch.ArchIO.classLoad`: arch.c:211–218; arch_dist.c:82–100
* `Scotch.ArchIO.loadF`: arch.c:189–221
* `Scotch.ArchIO.archLoad`: arch.c:189–221
* `Scotch.ArchIO.meshDomSave`: arch_mesh.c:980–998
* `Scotch.ArchIO.domSave`: arch.c:443–450; arch_cmplt.c:363–377; arch_cmpltw.c:508–522; arch_deco.c:561–574; arch_hcub.c:343–357; arch_tleaf.c:557–572; arch_sub.c:777–790; arch_vcmplt.c:212–225; arch_vhcub.c:212–225; arch_dist.c:262–268
* `Scotch.ArchIO.meshDomLoad`: arch_mesh.c:952–971
* `Scotch.ArchIO.varDomLoad`: arch_vcmplt.c:185–203; arch_vhcub.c:185–203
* `Scotch.ArchIO.tleafDomLoad`: arch_tleaf.c:532–548
* `Scotch.ArchIO.cmpltwDomLoad`: arch_cmpltw.c:469–499
* `Scotch.ArchIO.domLoad`: arch.c:427–434; arch_cmplt.c:334–354; arch_deco.c:539–552; arch_hcub.c:320–334; arch_sub.c:754–768; arch_sub.c:401–426; arch_dist.c:246–253

## Band/Model.lean

* `Scotch.Band.isFix`: graph_band.c:116, 145
* `Scotch.Band.reach`: graph_band.c:116–122, 145–152
* `Scotch.Band.arc`: graph_band.c:139–154
* `Scotch.Band.level`: graph_band.c:130–157
* `Scotch.Band.band`: graph_band.c:74–166

## Band/ModelDiam.lean

* `Scotch.Diam.addVelo`: graph_diam.c:161–162
* `Scotch.Diam.relax`: graph_diam.c:170–181
* `Scotch.Diam.better`: graph_diam.c:157–160
* `Scotch.Diam.step`: graph_diam.c:146–183
* `Scotch.Diam.sweep`: graph_diam.c:131–189
* `Scotch.Diam.diamPV`: graph_diam.c:97–198

## Bipart/Model.lean

* `Scotch.Bipart.Bgraph`: src/libscotch/bgraph.h:91–113
* `Scotch.Bipart.init2`: bgraph.c:147–177
* `Scotch.Bipart.init`: bgraph.c:98–139
* `Scotch.Bipart.swal`: bgraph.c:213–231
* `Scotch.Bipart.zero`: bgraph.c:241–256
* `Scotch.Bipart.costArcs`: bgraph_cost.c:118–131
* `Scotch.Bipart.costFron`: bgraph_cost.c:133–134
* `Scotch.Bipart.costVertex`: bgraph_cost.c:96–135
* `Scotch.Bipart.cost2`: bgraph_cost.c:69–145
* `Scotch.Bipart.cost`: bgraph_cost.c:153–176
* `Scotch.Bipart.checkFlag`: bgraph_check.c:140–142, 160–162
* `Scotch.Bipart.checkFron`: bgraph_check.c:121–149
* `Scotch.Bipart.checkMissing`: bgraph_check.c:151–168
* `Scotch.Bipart.checkParts`: bgraph_check.c:101–106
* `Scotch.Bipart.checkCost`: bgraph_check.c:170–191
* `Scotch.Bipart.check`: bgraph_check.c:76–201
* `Scotch.Bipart.storeInit`: bgraph_store.c:75–90
* `Scotch.Bipart.storeSave`: bgraph_store.c:114–135
* `Scotch.Bipart.storeUpdt`: bgraph_store.c:143–171
* `Scotch.Bipart.bipartZr`: bgraph_bipart_zr.c:79–94

## Bipart/ModelBd.lean

* `Scotch.Bipart.bdFirst`: bgraph_bipart_bd.c:133–140
* `Scotch.Bipart.bdTake`: bgraph_bipart_bd.c:155–171, 190–206
* `Scotch.Bipart.bdArc`: bgraph_bipart_bd.c:177–181
* `Scotch.Bipart.bdVert`: bgraph_bipart_bd.c:150–183
* `Scotch.Bipart.bdLevel`: bgraph_bipart_bd.c:148–184
* `Scotch.Bipart.bdLast`: bgraph_bipart_bd.c:186–207
* `Scotch.Bipart.bdLoads`: bgraph_bipart_bd.c:209–212
* `Scotch.Bipart.bdSearch`: bgraph_bipart_bd.c:119–212
* `Scotch.Bipart.bdVeex`: bgraph_bipart_bd.c:284–291, 328–335
* `Scotch.Bipart.bdOpen`: bgraph_bipart_bd.c:279–291, 323–335
* `Scotch.Bipart.bdArcIn`: bgraph_bipart_bd.c:293–308
* `Scotch.Bipart.bdArcOut`: bgraph_bipart_bd.c:339–359
* `Scotch.Bipart.bdDegr`: bgraph_bipart_bd.c:310–312, 367–369, 423–426
* `Scotch.Bipart.bdVertIn`: bgraph_bipart_bd.c:270–313
* `Scotch.Bipart.bdAnchor`: bgraph_bipart_bd.c:361–366
* `Scotch.Bipart.bdVertOut`: bgraph_bipart_bd.c:315–370
* `Scotch.Bipart.bdBack`: bgraph_bipart_bd.c:385–407
* `Scotch.Bipart.bdVeexInit`: bgraph_bipart_bd.c:229–253
* `Scotch.Bipart.bdVerts`: bgraph_bipart_bd.c:223–370
* `Scotch.Bipart.bdClose`: bgraph_bipart_bd.c:371–433
* `Scotch.Bipart.bdIntn`: bgraph_bipart_bd.c:445–460
* `Scotch.Bipart.bdExtn`: bgraph_bipart_bd.c:439–465
* `Scotch.Bipart.bdFill`: bgraph_bipart_bd.c:435–485
* `Scotch.Bipart.bdBuild`: bgraph_bipart_bd.c:220–485
* `Scotch.Bipart.bdSwap`: bgraph_bipart_bd.c:516–523
* `Scotch.Bipart.bdSize`: bgraph_bipart_bd.c:519, 525
* `Scotch.Bipart.bdFron`: bgraph_bipart_bd.c:530–541
* `Scotch.Bipart.bdOuter`: bgraph_bipart_bd.c:562–577
* `Scotch.Bipart.bdAncArc`: bgraph_bipart_bd.c:550–578
* `Scotch.Bipart.bdAncFron`: bgraph_bipart_bd.c:543–579
* `Scotch.Bipart.bdBring`: bgraph_bipart_bd.c:510–580
* `Scotch.Bipart.bdRun`: bgraph_bipart_bd.c:497–592
* `Scotch.Bipart.bipartBd`: bgraph_bipart_bd.c:75–593

## Bipart/ModelDf.lean

* `Scotch.Bipart.dfStart`: bgraph_bipart_df.c:191
* `Scotch.Bipart.dfEnd`: bgraph_bipart_df.c:192–199
* `Scotch.Bipart.dfAnc`: bgraph_bipart_df.c:192–199
* `Scotch.Bipart.dfIels`: bgraph_bipart_df.c:226–254
* `Scotch.Bipart.dfInitThread`: bgraph_bipart_df.c:207–255
* `Scotch.Bipart.dfAncIels`: bgraph_bipart_df.c:265–268
* `Scotch.Bipart.dfInit`: bgraph_bipart_df.c:207–273
* `Scotch.Bipart.dfVeex`: bgraph_bipart_df.c:320–340
* `Scotch.Bipart.dfAbsorb`: bgraph_bipart_df.c:346–355
* `Scotch.Bipart.dfDiff`: bgraph_bipart_df.c:308–355
* `Scotch.Bipart.dfRange`: bgraph_bipart_df.c:303–365
* `Scotch.Bipart.dfVanc`: bgraph_bipart_df.c:380
* `Scotch.Bipart.dfAnchors`: 302–381
* `Scotch.Bipart.dfPassThread`: bgraph_bipart_df.c:292–381
* `Scotch.Bipart.dfPasses`: bgraph_bipart_df.c:286–395
* `Scotch.Bipart.dfParts`: bgraph_bipart_df.c:397–398
* `Scotch.Bipart.dfSumVert`: bgraph_bipart_df.c:411–439
* `Scotch.Bipart.dfSumThread`: bgraph_bipart_df.c:201–215, 404–446
* `Scotch.Bipart.dfScan`: bgraph_bipart_df.c:449
* `Scotch.Bipart.dfCopy`: bgraph_bipart_df.c:452–453
* `Scotch.Bipart.dfLoads`: bgraph_bipart_df.c:505–510
* `Scotch.Bipart.bipartDf`: bgraph_bipart_df.c:142–537

## Bipart/ModelFm.lean

* `Scotch.Bipart.fmPrime`: bgraph_bipart_fm.h:74
* `Scotch.Bipart.FmSt`: bgraph_bipart_fm.h:161–163, 175–177; vgraph_separate_fm.h:69–72
* `Scotch.Bipart.FmSlot`: bgraph_bipart_fm.h:114–122
* `Scotch.Bipart.FmSave`: bgraph_bipart_fm.h:126–132
* `Scotch.Bipart.Fm`: bgraph_bipart_fm.c:249–282
* `Scotch.Bipart.fmTablLoop`: bgraph_bipart_fm.c:122–148
* `Scotch.Bipart.fmTablGet`: bgraph_bipart_fm.c:107–149
* `Scotch.Bipart.fmFree`: bgraph_bipart_fm.c:388, 434, 604
* `Scotch.Bipart.fmSearch`: bgraph_bipart_fm.c:562–563, 590
* `Scotch.Bipart.fmLocate`: bgraph_bipart_fm.c:967
* `Scotch.Bipart.fmInitVals`: bgraph_bipart_fm.c:367–386, 392–394
* `Scotch.Bipart.fmInsert`: bgraph_bipart_fm.c:358–396
* `Scotch.Bipart.fmSize`: bgraph_bipart_fm.c:331
* `Scotch.Bipart.fmLastFree`: bgraph_bipart_fm.c:924
* `Scotch.Bipart.fmPlace`: bgraph_bipart_fm.c:934–949
* `Scotch.Bipart.fmRelocate`: bgraph_bipart_fm.c:944–946
* `Scotch.Bipart.fmRehash`: bgraph_bipart_fm.c:930–955
* `Scotch.Bipart.fmResize`: bgraph_bipart_fm.c:864–979
* `Scotch.Bipart.fmSave`: bgraph_bipart_fm.c:532–538, 567–573, 738–744
* `Scotch.Bipart.fmSaveOnce`: bgraph_bipart_fm.c:531–539, 566–574, 737–745
* `Scotch.Bipart.fmRelink`: bgraph_bipart_fm.c:580–587
* `Scotch.Bipart.fmMeetOld`: bgraph_bipart_fm.c:564–588
* `Scotch.Bipart.fmArcSum`: bgraph_bipart_fm.c:607–618
* `Scotch.Bipart.fmRoom`: bgraph_bipart_fm.c:598–605
* `Scotch.Bipart.fmMeetNew`: bgraph_bipart_fm.c:591–652
* `Scotch.Bipart.fmArc`: bgraph_bipart_fm.c:558–654
* `Scotch.Bipart.fmMove`: bgraph_bipart_fm.c:524–655
* `Scotch.Bipart.fmEqual`: bgraph_bipart_fm.c:678–682
* `Scotch.Bipart.fmBetter`: bgraph_bipart_fm.c:658–665, 669–675, 694–701, 763–770
* `Scotch.Bipart.fmCompare`: bgraph_bipart_fm.c:657–684
* `Scotch.Bipart.fmTighten`: bgraph_bipart_fm.c:686–702
* `Scotch.Bipart.fmSwapSlot`: bgraph_bipart_fm.c:732–757
* `Scotch.Bipart.fmSwap`: bgraph_bipart_fm.c:712–782
* `Scotch.Bipart.fmStep`: bgraph_bipart_fm.c:517–783
* `Scotch.Bipart.fmRestore`: bgraph_bipart_fm.c:469–484
* `Scotch.Bipart.fmUnlock`: bgraph_bipart_fm.c:502–510
* `Scotch.Bipart.fmPass`: bgraph_bipart_fm.c:466–783
* `Scotch.Bipart.fmPasses`: bgraph_bipart_fm.c:465, 784–785
* `Scotch.Bipart.fmWritePart`: bgraph_bipart_fm.c:827–830
* `Scotch.Bipart.fmWriteFron`: bgraph_bipart_fm.c:831–832
* `Scotch.Bipart.fmWrite`: bgraph_bipart_fm.c:818–832
* `Scotch.Bipart.fmRestoreEnd`: bgraph_bipart_fm.c:806–810
* `Scotch.Bipart.fmSwapParts`: bgraph_bipart_fm.c:797–803
* `Scotch.Bipart.fmFinish`: bgraph_bipart_fm.c:796–839
* `Scotch.Bipart.fmFill`: bgraph_bipart_fm.c:354–444
* `Scotch.Bipart.fmMain`: bgraph_bipart_fm.c:320–852
* `Scotch.Bipart.bipartFm`: bgraph_bipart_fm.c:244–853

## Bipart/ModelGg.lean

* `Scotch.Bipart.ggLoad`: bgraph_bipart_gg.c:170, 184–186
* `Scotch.Bipart.ggGain0`: bgraph_bipart_gg.c:164–192
* `Scotch.Bipart.ggGains`: bgraph_bipart_gg.c:164–192
* `Scotch.Bipart.ggArc`: bgraph_bipart_gg.c:253–264
* `Scotch.Bipart.ggStep`: bgraph_bipart_gg.c:225–267
* `Scotch.Bipart.ggScan`: bgraph_bipart_gg.c:281–286
* `Scotch.Bipart.ggRoot`: bgraph_bipart_gg.c:217–287
* `Scotch.Bipart.ggPass`: bgraph_bipart_gg.c:204–287
* `Scotch.Bipart.ggParts`: bgraph_bipart_gg.c:298–299
* `Scotch.Bipart.ggDraw`: bgraph_bipart_gg.c:215
* `Scotch.Bipart.ggTry`: bgraph_bipart_gg.c:203–301
* `Scotch.Bipart.ggFronArc`: bgraph_bipart_gg.c:316–327
* `Scotch.Bipart.ggFronVert`: bgraph_bipart_gg.c:309–329
* `Scotch.Bipart.ggFronHead`: bgraph_bipart_gg.c:309
* `Scotch.Bipart.ggFronStep`: bgraph_bipart_gg.c:307–334
* `Scotch.Bipart.bipartGg`: bgraph_bipart_gg.c:125–359

## Bipart/ModelGp.lean

* `Scotch.Bipart.Gp`: bgraph_bipart_gp.h:72–83
* `Scotch.Bipart.gpStart`: bgraph_bipart_gp.c:136–139, 172–175
* `Scotch.Bipart.gpArcs`: bgraph_bipart_gp.c:159–168, 190–199
* `Scotch.Bipart.gpDiam`: bgraph_bipart_gp.c:149–156
* `Scotch.Bipart.gpSearchStep`: bgraph_bipart_gp.c:141–169
* `Scotch.Bipart.gpPassStep`: bgraph_bipart_gp.c:134–170
* `Scotch.Bipart.gpGrowStep`: bgraph_bipart_gp.c:177–200
* `Scotch.Bipart.gpFronArc`: bgraph_bipart_gp.c:224–233
* `Scotch.Bipart.gpFronStep`: bgraph_bipart_gp.c:208–235
* `Scotch.Bipart.gpNextRoot`: bgraph_bipart_gp.c:131–132
* `Scotch.Bipart.gpRootStep`: bgraph_bipart_gp.c:123–239
* `Scotch.Bipart.gpMain`: bgraph_bipart_gp.c:109–257
* `Scotch.Bipart.bipartGp`: bgraph_bipart_gp.c:86–258

## Bipart/ModelSt.lean

* `Scotch.Bipart.stFm`: bgraph_bipart_fm.c:292–294; bgraph_bipart_ml.c:148–150
* `Scotch.Bipart.bipartEx`: bgraph_bipart_ex.c:91–124
* `Scotch.Bipart.mlVeexStep`: bgraph_bipart_ml.c:126–136
* `Scotch.Bipart.mlVeex`: bgraph_bipart_ml.c:111–142
* `Scotch.Bipart.mlCoarsen`: bgraph_bipart_ml.c:111–164
* `Scotch.Bipart.mlPartStep`: bgraph_bipart_ml.c:218–233
* `Scotch.Bipart.mlCuts`: bgraph_bipart_ml.c:262–268, 274–280
* `Scotch.Bipart.mlFronStep`: bgraph_bipart_ml.c:243–291
* `Scotch.Bipart.mlUncoarsen`: bgraph_bipart_ml.c:213–292
* `Scotch.Bipart.mlUp`: bgraph_bipart_ml.c:322–326
* `Scotch.Bipart.bipartMl2`: bgraph_bipart_ml.c:313–335
* `Scotch.Bipart.selRange`: bgraph_bipart_st.c:328–333
* `Scotch.Bipart.selKeep`: bgraph_bipart_st.c:336–351
* `Scotch.Bipart.selBest`: bgraph_bipart_st.c:323–355
* `Scotch.Bipart.bipartSt`: bgraph_bipart_st.c:253–376

## Bipart/PropsDf.lean

* `Scotch.Bipart.Ext`: bgraph_bipart_df.c:438

## Bipart/PropsGg.lean

* `Scotch.Bipart.exO`: bgraph_bipart_fm.c:300–316
* `Scotch.Bipart.exE`: bgraph_bipart_gg.c:203, 307–337

## Bipart/PropsSt.lean

* `Scotch.Bipart.exCJ`: bgraph_bipart_ml.c:104–110

## Build/Model.lean

* `Scotch.Build.fields`: library_graph.c:248–260
* `Scotch.Build.veloSum`: library_graph.c:262–270
* `Scotch.Build.degrMax`: library_graph.c:279–281, 292–294
* `Scotch.Build.edloSum`: library_graph.c:272–299
* `Scotch.Build.graphBuild`: library_graph.c:222–303
* `Scotch.Build.graphData`: library_graph.c:336–371

## Coarsen/Model.lean

* `Scotch.Coarsen.Cell`: graph_coarsen.h:118–122
* `Scotch.Coarsen.hashPrime`: graph_coarsen.h:88
* `Scotch.Coarsen.maskLoop`: graph_coarsen.c:509
* `Scotch.Coarsen.hashMask`: graph_coarsen.c:509–510
* `Scotch.Coarsen.numberBody`: graph_coarsen.c:346–355
* `Scotch.Coarsen.numberSeq`: graph_coarsen.c:343–356
* `Scotch.Coarsen.countRange`: graph_coarsen.c:284–291
* `Scotch.Coarsen.multRange`: graph_coarsen.c:307–318
* `Scotch.Coarsen.coarRange`: graph_coarsen.c:325–329
* `Scotch.Coarsen.multPhase`: graph_coarsen.c:293–307
* `Scotch.Coarsen.hashLoop`: graph_coarsen_edge.c:124–150
* `Scotch.Coarsen.hashStart`: graph_coarsen_edge.c:124
* `Scotch.Coarsen.addArcM`: graph_coarsen_edge.c:124–150
* `Scotch.Coarsen.arcBody`: graph_coarsen_edge.c:117–161
* `Scotch.Coarsen.fineBody`: graph_coarsen_edge.c:112–161
* `Scotch.Coarsen.fineVelo`: graph_coarsen_edge.c:114
* `Scotch.Coarsen.wrVend`: graph_coarsen_edge.c:170–171
* `Scotch.Coarsen.pairBody`: graph_coarsen_edge.c:108–162
* `Scotch.Coarsen.coarBody`: graph_coarsen_edge.c:97–173
* `Scotch.Coarsen.edgeRange`: graph_coarsen_edge.c:90–181; graph_coarsen.c:368–380
* `Scotch.Coarsen.ctRange`: graph_coarsen_edge.c:90–181; graph_coarsen.c:412–413
* `Scotch.Coarsen.degRange`: graph_coarsen.c:397–409
* `Scotch.Coarsen.Sums`: graph_coarsen.c:117–128
* `Scotch.Coarsen.slotsOf`: graph_coarsen.c:389–415
* `Scotch.Coarsen.edgePhase`: graph_coarsen.c:416–452
* `Scotch.Coarsen.initState`: graph_coarsen.c:240–271
* `Scotch.Coarsen.wrLast`: graph_coarsen.c:461–467
* `Scotch.Coarsen.assemble`: graph_coarsen.c:243–248, 457–472
* `Scotch.Coarsen.buildSeq`: graph_coarsen.c:216–473; graph_coarsen.c:521–524

## Coarsen/ModelTop.lean

* `Scotch.Coarsen.coarsen`: graph_coarsen.c:580–630; graph_coarsen.c:183–211, 493–567

## Color/Model.lean

* `Scotch.Color.drawAll`: library_graph_color.c:123–124
* `Scotch.Color.nbrBody`: library_graph_color.c:140–151
* `Scotch.Color.queueAt`: library_graph_color.c:137
* `Scotch.Color.endBody`: library_graph_color.c:153–156
* `Scotch.Color.passBody`: library_graph_color.c:132–156
* `Scotch.Color.colorStep`: library_graph_color.c:127–159
* `Scotch.Color.colorWith`: library_graph_color.c:109–110, 126–161
* `Scotch.Color.graphColor`: library_graph_color.c:77–170

## Context/Model.lean

* `Scotch.Ctx.Block`: context.c:58–73
* `Scotch.Ctx.Values`: src/libscotch/common_values.h:53–61
* `Scotch.Ctx.init`: common_values.c:69–99; context.c:87–94; library_context.c:100–119
* `Scotch.Ctx.getInt`: common_values.c:125–141
* `Scotch.Ctx.getDbl`: common_values.c:107–123
* `Scotch.Ctx.allocate`: common_values.c:149–167
* `Scotch.Ctx.storeInt`: common_values.c:205–208
* `Scotch.Ctx.setInt`: common_values.c:190–211
* `Scotch.Ctx.storeDbl`: common_values.c:182–185
* `Scotch.Ctx.setDbl`: common_values.c:169–188
* `Scotch.Ctx.exit`: common_context.c:99–103
* `Scotch.Ctx.DETERMINISTIC`: context.h:59–63
* `Scotch.Ctx.optionGetNum`: library_context.c:278–285
* `Scotch.Ctx.optionSetNum`: library_context.c:294–324
* `Scotch.Ctx.optionOf`: library_context.c:334–339
* `Scotch.Ctx.skip`: library_context.c:352–353, 371–372
* `Scotch.Ctx.parseStep`: library_context.c:348–377
* `Scotch.Ctx.optionParse`: library_context.c:341–380

## Context/Props.lean

* `Scotch.Ctx.deterministicFixesSeed`: library_context.c:311–317

## Context/Spec.lean

* `Scotch.CtxSpec.letters`: library.h:97–101

## Dist/FoldModel.lean

* `Scotch.Fold.Move`: dgraph_fold_comm.c:370–397, 409–450
* `Scotch.Fold.FoldIn.half`: dgraph_fold_comm.c:171–184
* `Scotch.Fold.dataSize`: common.h:501
* `Scotch.Fold.sortAt`: dgraph_fold_comm.c:207, 224
* `Scotch.Fold.sortSnd`: dgraph_fold_comm.c:203–207
* `Scotch.Fold.sortRcv`: dgraph_fold_comm.c:220–224
* `Scotch.Fold.skipEmpty`: dgraph_fold_comm.c:226–229
* `Scotch.Fold.Ctl`: dgraph_fold_comm.c:270–274
* `Scotch.Fold.Pick`: dgraph_fold_comm.c:288–313
* `Scotch.Fold.pickSnd`: dgraph_fold_comm.c:288–293
* `Scotch.Fold.pick`: dgraph_fold_comm.c:288–313
* `Scotch.Fold.capacity`: dgraph_fold_comm.c:316–318
* `Scotch.Fold.raise`: dgraph_fold_comm.c:315, 319–333
* `Scotch.Fold.nextRcv`: dgraph_fold_comm.c:356–358, 402–404
* `Scotch.Fold.small`: dgraph_fold_comm.c:370–405
* `Scotch.Fold.smallCond`: dgraph_fold_comm.c:360–364
* `Scotch.Fold.bigMove`: dgraph_fold_comm.c:408–456
* `Scotch.Fold.giveStep`: dgraph_fold_comm.c:340–457
* `Scotch.Fold.tail`: dgraph_fold_comm.c:458–468
* `Scotch.Fold.planStep`: dgraph_fold_comm.c:275–469
* `Scotch.Fold.foldTry`: dgraph_fold_comm.c:210–471
* `Scotch.Fold.foldPlan`: dgraph_fold_comm.c:203–472
* `Scotch.Fold.Tables`: dgraph_fold_comm.c:133–148
* `Scotch.Fold.FoldIn.isRcv`: dgraph_fold_comm.c:186–193
* `Scotch.Fold.tablesInit`: dgraph_fold_comm.c:186–193, 234–268
* `Scotch.Fold.Tables.comm`: dgraph_fold_comm.c:379–381, 425–427, 431–433, 443–445
* `Scotch.Fold.Tables.both`: dgraph_fold_comm.c:419–429
* `Scotch.Fold.Tables.emit`: dgraph_fold_comm.c:377–394, 415–447
* `Scotch.Fold.Shift`: dgraph_fold_comm.c:505–507
* `Scotch.Fold.shiftStep`: dgraph_fold_comm.c:511–524
* `Scotch.Fold.packStep`: dgraph_fold_comm.c:529–534
* `Scotch.Fold.foldFinish`: dgraph_fold_comm.c:492–541
* `Scotch.Fold.foldTables`: dgraph_fold_comm.c:186–193, 231–268, 377–394, 415–447
* `Scotch.Fold.renum`: dgraph_fold.c:552–562, 675–685

## Dist/Model.lean

* `Scotch.Dist.Ranges`: dgraph.h:153–193
* `Scotch.Dist.gathered`: dgraph_build.c:202–208
* `Scotch.Dist.build2`: dgraph_build.c:175–222
* `Scotch.Dist.ownerOf`: dgraph_ghst.c:197–206
* `Scotch.Dist.sidMax`: dgraph_ghst.h:64
* `Scotch.Dist.ghstJump`: dgraph_ghst.c:212–215
* `Scotch.Dist.ghstLast`: dgraph_ghst.c:216–219
* `Scotch.Dist.ghstSend`: dgraph_ghst.c:208–221
* `Scotch.Dist.ghstArc`: dgraph_ghst.c:176–222
* `Scotch.Dist.ghstPhase1`: dgraph_ghst.c:162–224
* `Scotch.Dist.ghstProc`: dgraph_ghst.c:241–252
* `Scotch.Dist.ghstInner`: dgraph_ghst.c:263–273
* `Scotch.Dist.ghstOuter`: dgraph_ghst.c:239–274
* `Scotch.Dist.ghstPhase2`: dgraph_ghst.c:226–285
* `Scotch.Dist.ghst`: dgraph_ghst.c:89–314
* `Scotch.Dist.cumul`: dgraph_halo.c:124–126, 137–139
* `Scotch.Dist.haloFill`: dgraph_halo.c:112–140; dgraph_halo_fill.c:57–82
* `Scotch.Dist.message`: dgraph_halo.c:230
* `Scotch.Dist.alltoallv`: dgraph_halo.c:316–318
* `Scotch.Dist.posts`: dgraph_halo.c:299–309
* `Scotch.Dist.ptop`: dgraph_halo.c:286–310
* `Scotch.Dist.haloSync`: dgraph_halo.c:232–236

## Esmumps/Model.lean

* `Scotch.Esmumps.emEnds`: esmumps.c:136–137
* `Scotch.Esmumps.emBlok`: esmumps.c:206, 213–215
* `Scotch.Esmumps.emDegr`: esmumps.c:203–217
* `Scotch.Esmumps.emFath`: esmumps.c:219–221
* `Scotch.Esmumps.emSecn`: esmumps.c:225–226
* `Scotch.Esmumps.emCblk`: esmumps.c:198–228
* `Scotch.Esmumps.esmumps2`: esmumps.c:106–236

## Esmumps/Props.lean

* `Scotch.emFail`: esmumps.c:95–97

## Fax/Model.lean

* `Scotch.Fax.degrMax`: symbol_fax.c:219–223
* `Scotch.Fax.hashMax`: symbol_fax.c:225
* `Scotch.Fax.ctrbSum`: symbol_fax.c:229–231
* `Scotch.Fax.grow`: symbol_fax.c:240–262
* `Scotch.Fax.hashPut`: symbol_fax.c:293–307
* `Scotch.Fax.collect`: symbol_fax.c:281–309
* `Scotch.Fax.findCblk`: symbol_fax.c:330–343
* `Scotch.Fax.runEnd`: symbol_fax.c:346–348
* `Scotch.Fax.runs`: symbol_fax.c:326–355
* `Scotch.Fax.direct`: symbol_fax.c:317–356
* `Scotch.Fax.putTlok`: symbol_fax.c:395–403
* `Scotch.Fax.chain`: symbol_fax.c:367–411
* `Scotch.Fax.skip`: symbol_fax.c:427–431
* `Scotch.Fax.newTlok`: symbol_fax.c:437–446
* `Scotch.Fax.insert`: symbol_fax.c:447–455
* `Scotch.Fax.absorb`: symbol_fax.c:468–477
* `Scotch.Fax.lower`: symbol_fax.c:458–460
* `Scotch.Fax.upper`: symbol_fax.c:462–478
* `Scotch.Fax.mergeBlok`: symbol_fax.c:427–479
* `Scotch.Fax.mergeCblk`: symbol_fax.c:419–480
* `Scotch.Fax.mergeAll`: symbol_fax.c:417–481
* `Scotch.Fax.copy`: symbol_fax.c:483–493
* `Scotch.Fax.updated`: symbol_fax.c:357–494
* `Scotch.Fax.link`: symbol_fax.c:495–498
* `Scotch.Fax.blocks`: symbol_fax.c:316–494
* `Scotch.Fax.cblkStep`: symbol_fax.c:200–498
* `Scotch.Fax.symbolFax`: symbol_fax_graph.c:97–133; symbol_fax.c:146–507
* `Scotch.Fax.checkBloks`: symbol_check.c:125–135
* `Scotch.Fax.checkCblk`: symbol_check.c:103–136
* `Scotch.Fax.symbolCheck`: symbol_check.c:83–139

## Fibo/Model.lean

* `Scotch.Fibo.Heap`: fibo.h:83–107
* `Scotch.Fibo.init`: fibo.c:82–96
* `Scotch.Fibo.free`: fibo.c:119–124
* `Scotch.Fibo.linkAfter`: fibo.h:113–120
* `Scotch.Fibo.unlink`: fibo.h:122–125
* `Scotch.Fibo.add`: fibo.h:127–132
* `Scotch.Fibo.newChld`: fibo.h:145
* `Scotch.Fibo.moveToRoot`: fibo.h:136–147
* `Scotch.Fibo.decreaseLoop`: fibo.h:157–165
* `Scotch.Fibo.decrease`: fibo.h:149–167
* `Scotch.Fibo.cutLoop`: fibo.h:175–181
* `Scotch.Fibo.cutChildren`: fibo.h:169–183
* `Scotch.Fibo.delLoop`: fibo.h:194–208
* `Scotch.Fibo.del`: fibo.h:185–209
* `Scotch.Fibo.link`: fibo.c:176–190
* `Scotch.Fibo.consLoop`: fibo.c:148–192
* `Scotch.Fibo.pickBest`: fibo.c:197
* `Scotch.Fibo.bestLoop`: fibo.c:194–209
* `Scotch.Fibo.consolidate`: fibo.c:136–221

## Gain/Model.lean

* `Scotch.Gain.Tabl`: gain.h:87–97
* `Scotch.Gain.init`: gain.c:145–187
* `Scotch.Gain.free`: gain.c:207–219
* `Scotch.Gain.idxLin`: gain.c:244–248
* `Scotch.Gain.shifts`: gain.c:287
* `Scotch.Gain.idxLog`: gain.c:286–294
* `Scotch.Gain.addAt`: gain.c:250–260
* `Scotch.Gain.add`: gain.c:228–261; gain.c:270–316
* `Scotch.Gain.del`: gain.h:129–130
* `Scotch.Gain.frst`: gain.c:355–388
* `Scotch.Gain.next`: gain.c:397–428
* `Scotch.Gain.moveChain`: gain.c:456–460
* `Scotch.Gain.moveFrom`: gain.c:438–471
* `Scotch.Gain.isEmpty`: gain.h:126

## Graph/Clone.lean

* `Scotch.Graph.optSize`: graph_clone.c:86–91
* `Scotch.Graph.cloneOpt`: graph_clone.c:133–139, 143–149, 151–156
* `Scotch.Graph.cloneEnds`: graph_clone.c:107–130
* `Scotch.Graph.cloneEdges`: graph_clone.c:158–179
* `Scotch.Graph.clone`: graph_clone.c:69–193

## Graph/IO.lean

* `Scotch.Graph.loadHeader`: graph_io.c:113–143
* `Scotch.Graph.loadSum`: graph_io.c:211–213, 240–242
* `Scotch.Graph.loadEdlo`: graph_io.c:232–243
* `Scotch.Graph.loadArc`: graph_io.c:232–250
* `Scotch.Graph.loadVlbl`: graph_io.c:191–202
* `Scotch.Graph.loadVelo`: graph_io.c:203–214
* `Scotch.Graph.loadVert`: graph_io.c:189–251
* `Scotch.Graph.relabelIndex`: graph_io.c:300–308
* `Scotch.Graph.relabelArc`: graph_io.c:312–324
* `Scotch.Graph.load2`: graph_io.c:282–330
* `Scotch.Graph.loadEnd`: graph_io.c:258–279
* `Scotch.Graph.loadAdj`: graph_io.c:146–155
* `Scotch.Graph.loadBody`: graph_io.c:145–279
* `Scotch.Graph.load`: graph_io.c:88–280
* `Scotch.Graph.saveOpt`: graph_io.c:367–370, 379–380
* `Scotch.Graph.saveEnd`: graph_io.c:381–382
* `Scotch.Graph.saveArc`: graph_io.c:378–382
* `Scotch.Graph.saveVert`: graph_io.c:365–384
* `Scotch.Graph.propChar`: graph_io.c:349–351
* `Scotch.Graph.saveHeader`: graph_io.c:349–361
* `Scotch.Graph.save`: graph_io.c:340–391

## Graph/Induce.lean

* `Scotch.Graph.pad`: common_memory.c:503, 518, 595
* `Scotch.Graph.induceSize`: graph_induce.c:247–251
* `Scotch.Graph.induceArc`: graph_induce.c:323–331, 334–340
* `Scotch.Graph.induceVelo`: graph_induce.c:317–320
* `Scotch.Graph.induceVert`: graph_induce.c:315–341
* `Scotch.Graph.induceVnum`: graph_induce.c:353–356
* `Scotch.Graph.induce3`: graph_induce.c:275–381
* `Scotch.Graph.induceVertArr`: graph_induce.c:211–264
* `Scotch.Graph.induceListLoop`: graph_induce.c:131–139
* `Scotch.Graph.induceList`: graph_induce.c:103–142
* `Scotch.Graph.inducePartLoop`: graph_induce.c:180–190
* `Scotch.Graph.inducePart`: graph_induce.c:156–200

## Graph/Model.lean

* `Scotch.Graph`: src/libscotch/graph.h:128–144
* `Scotch.Graph.findArc`: graph_check.c:158–160, 166–168
* `Scotch.Graph.checkLoad`: graph_check.c:139–148, 177–186
* `Scotch.Graph.edloDiffer`: graph_check.c:162
* `Scotch.Graph.checkReverse`: graph_check.c:158–172
* `Scotch.Graph.checkArc`: graph_check.c:134–173
* `Scotch.Graph.checkVelo`: graph_check.c:174–187
* `Scotch.Graph.checkVert`: graph_check.c:120–188
* `Scotch.Graph.check`: graph_check.c:87–207
* `Scotch.Graph.baseLoop`: graph_base.c:101–105
* `Scotch.Graph.baseEnds`: graph_base.c:106–111
* `Scotch.Graph.base`: graph_base.c:85–130

## HOrder/Model.lean

* `Scotch.HOrder.Hgraph`: hgraph.h:71–81
* `Scotch.HOrder.unhalo`: hgraph.c:121–141
* `Scotch.HOrder.haloNum`: hgraph_induce_edge.c:118–122
* `Scotch.HOrder.arc1`: hgraph_induce_edge.c:117–133
* `Scotch.HOrder.copyVelo`: hgraph_induce_edge.c:103–106, 177–180
* `Scotch.HOrder.vert1`: hgraph_induce_edge.c:100–143
* `Scotch.HOrder.arc2`: hgraph_induce_edge.c:187–194
* `Scotch.HOrder.vert2`: hgraph_induce_edge.c:175–197
* `Scotch.HOrder.edgeSize`: hgraph_induce.c:123–124
* `Scotch.HOrder.hinduce`: hgraph_induce.c:84–231; hgraph_induce_edge.c:54–214

## HOrder/ModelCheck.lean

* `Scotch.HOrder.hcheckVert`: hgraph_check.c:98–111
* `Scotch.HOrder.hcheckHalo`: hgraph_check.c:118–125
* `Scotch.HOrder.hcheckRest`: hgraph_check.c:87–127
* `Scotch.HOrder.hcheck`: hgraph_check.c:74–128

## HOrder/ModelCp.lean

* `Scotch.HOrder.cpPrime`: hgraph_order_cp.h:63
* `Scotch.HOrder.CpCell`: hgraph_order_cp.h:79–82
* `Scotch.HOrder.CpMate`: hgraph_order_cp.h:86–89
* `Scotch.HOrder.cpHashMask`: hgraph_order_cp.c:138–141
* `Scotch.HOrder.cpHaspMask`: hgraph_order_cp.c:159–165
* `Scotch.HOrder.cpSum`: hgraph_order_cp.c:170–184
* `Scotch.HOrder.cpMateArc`: hgraph_order_cp.c:214–232
* `Scotch.HOrder.cpPut`: hgraph_order_cp.c:245–250, 252–255
* `Scotch.HOrder.cpFind`: hgraph_order_cp.c:269–275, 353–363, 400–410
* `Scotch.HOrder.cpSame`: hgraph_order_cp.c:265–276
* `Scotch.HOrder.cpTry`: hgraph_order_cp.c:257–282
* `Scotch.HOrder.cpVert`: hgraph_order_cp.c:203–283
* `Scotch.HOrder.cpAdd`: hgraph_order_cp.c:353–363, 400–410
* `Scotch.HOrder.cpArc1`: hgraph_order_cp.c:345–363
* `Scotch.HOrder.cpVnhd`: hgraph_order_cp.c:328, 365
* `Scotch.HOrder.cpV1`: hgraph_order_cp.c:335–373
* `Scotch.HOrder.cpV2`: hgraph_order_cp.c:376–412
* `Scotch.HOrder.cpVelo`: hgraph_order_cp.c:329, 422–427
* `Scotch.HOrder.cpBuild`: hgraph_order_cp.c:296–431
* `Scotch.HOrder.cpTree`: hgraph_order_cp.c:508–542
* `Scotch.HOrder.cpTrees`: hgraph_order_cp.c:532–537
* `Scotch.HOrder.cpPeri`: hgraph_order_cp.c:475–490
* `Scotch.HOrder.cpSums`: hgraph_order_cp.c:158–185
* `Scotch.HOrder.cpVerts`: hgraph_order_cp.c:196–284
* `Scotch.HOrder.orderCp`: hgraph_order_cp.c:94–498

## HOrder/ModelHd.lean

* `Scotch.HOrder.hdDegree`: hall_order_hd.c:411–417
* `Scotch.HOrder.hdVert`: hall_order_hd.c:398–418
* `Scotch.HOrder.hdFlag`: hall_order_hd.c:475–489
* `Scotch.HOrder.hdPut`: hall_order_hd.c:490–496
* `Scotch.HOrder.hdLone`: hall_order_hd.c:497–502
* `Scotch.HOrder.hdList`: hall_order_hd.c:470–503
* `Scotch.HOrder.hdFind`: hall_order_hd.c:508–512
* `Scotch.HOrder.hdPivots`: hall_order_hd.c:507–867
* `Scotch.HOrder.hdKern`: hall_order_hd.c:371–925

## HOrder/ModelHx.lean

* `Scotch.HOrder.hxFillVert`: hgraph_order_hx.c:101–128
* `Scotch.HOrder.hxLen`: hgraph_order_hd.c:120–122
* `Scotch.HOrder.hxFill`: hgraph_order_hx.c:75–131
* `Scotch.HOrder.hxSecn`: hall_order_hx.c:197–201
* `Scotch.HOrder.hxPrin`: hall_order_hx.c:156–172
* `Scotch.HOrder.hxRep`: hall_order_hx.c:183–189
* `Scotch.HOrder.cwgtOne`: hall_order_hx.c:178
* `Scotch.HOrder.hxVert`: hall_order_hx.c:155–202
* `Scotch.HOrder.hxLeaf`: hall_order_hx.c:207–210
* `Scotch.HOrder.hxLast`: hall_order_hx.c:234
* `Scotch.HOrder.hxPrev`: hall_order_hx.c:250
* `Scotch.HOrder.hxAdopt`: hall_order_hx.c:243–245
* `Scotch.HOrder.hxMergeSecn`: hall_order_hx.c:231–237
* `Scotch.HOrder.hxGraft`: hall_order_hx.c:243–246, 255–258
* `Scotch.HOrder.hxMergeSons`: hall_order_hx.c:238–260
* `Scotch.HOrder.hxMerge`: hall_order_hx.c:226–261
* `Scotch.HOrder.cwgtBlk`: hall_order_hx.c:219–220
* `Scotch.HOrder.hxTry`: hall_order_hx.c:219–263
* `Scotch.HOrder.hxStep`: hall_order_hx.c:213–267
* `Scotch.HOrder.hxSons`: hall_order_hx.c:361–362
* `Scotch.HOrder.hxSecs`: hall_order_hx.c:365–367
* `Scotch.HOrder.hxTree`: hall_order_hx.c:348–370
* `Scotch.HOrder.hxBlk`: hall_order_hx.c:322–330
* `Scotch.HOrder.hxTrees`: hall_order_hx.c:272–278
* `Scotch.HOrder.hxBlocks`: hall_order_hx.c:306–331
* `Scotch.HOrder.hxRenum`: hall_order_hx.c:333–336
* `Scotch.HOrder.hxBuild`: hall_order_hx.c:106–339
* `Scotch.HOrder.hxSet`: hall_order_hx.c:139–142
* `Scotch.HOrder.hxLoads`: hgraph_order_hd.c:152–157
* `Scotch.HOrder.orderHx`: hgraph_order_hd.c:88–177; hgraph_order_hf.c:86–179

## HOrder/ModelKp.lean

* `Scotch.HOrder.kpBlock`: hgraph_order_kp.c:148–163
* `Scotch.HOrder.kpVert`: hgraph_order_kp.c:176–187
* `Scotch.HOrder.orderKp`: hgraph_order_kp.c:80–189
* `Scotch.HOrder.blBound`: hgraph_order_bl.c:150–158
* `Scotch.HOrder.blVert`: hgraph_order_bl.c:160–163
* `Scotch.HOrder.blBlock`: hgraph_order_bl.c:143–170
* `Scotch.HOrder.blSizes`: hgraph_order_bl.c:108–173
* `Scotch.HOrder.blSons`: hgraph_order_bl.c:188–193
* `Scotch.HOrder.blGo`: hgraph_order_bl.c:82–198

## HOrder/ModelMbl.lean

* `Scotch.HOrder.mblSizes`: hmesh_order_bl.c:117–122
* `Scotch.HOrder.mblGo`: hmesh_order_bl.c:77–132

## HOrder/ModelOrder.lean

* `Scotch.HOrder.Ord`: order.h:124–135
* `Scotch.HOrder.orderSi`: hgraph_order_si.c:78–104
* `Scotch.HOrder.GpQ.put`: hgraph_order_gp.h:76
* `Scotch.HOrder.gpArc`: hgraph_order_gp.c:169–182
* `Scotch.HOrder.gpBest`: hgraph_order_gp.c:156–163
* `Scotch.HOrder.gpVisit`: hgraph_order_gp.c:146–184
* `Scotch.HOrder.gpPass`: hgraph_order_gp.c:135–185
* `Scotch.HOrder.gpChainArc`: hgraph_order_gp.c:206–220, 222–230
* `Scotch.HOrder.gpLink`: hgraph_order_gp.c:201–231
* `Scotch.HOrder.gpPop`: hgraph_order_gp.c:192–232
* `Scotch.HOrder.gpRoot`: hgraph_order_gp.c:122–131
* `Scotch.HOrder.gpComp`: hgraph_order_gp.c:119–233
* `Scotch.HOrder.orderGp`: hgraph_order_gp.c:81–248
* `Scotch.HOrder.ccArc`: hgraph_order_cc.c:131–137
* `Scotch.HOrder.ccVisit`: hgraph_order_cc.c:118–147
* `Scotch.HOrder.ccRoot`: hgraph_order_cc.c:112–113
* `Scotch.HOrder.ccComp`: hgraph_order_cc.c:111–150
* `Scotch.HOrder.ccOrder`: hgraph_order_cc.c:180–203
* `Scotch.HOrder.orderCc`: hgraph_order_cc.c:75–208
* `Scotch.HOrder.ndGraph`: hgraph_order_nd.c:145–168
* `Scotch.HOrder.ndList`: hgraph_order_nd.c:188–192
* `Scotch.HOrder.noHalo`: hgraph_order_nd.c:261–267; library_graph_order.c:294–300
* `Scotch.HOrder.leafBlock`: hgraph_order_nd.c:229–232
* `Scotch.HOrder.ndSep`: hgraph_order_nd.c:238–285
* `Scotch.HOrder.ndGo`: hgraph_order_nd.c:85–117, 132–317
* `Scotch.HOrder.sepOf`: hgraph_order_nd.c:170

## HOrder/ModelSt.lean

* `Scotch.HOrder.orderSt`: hgraph_order_st.c:262–319
* `Scotch.HOrder.Tabs`: library_order.h:64–71
* `Scotch.HOrder.listTail`: library_graph_order.c:333–348
* `Scotch.HOrder.dropEdlo`: library_graph_order.c:291–293
* `Scotch.HOrder.orderList`: library_graph_order.c:291–366
* `Scotch.HOrder.graphOrder`: library_graph_order.c:115, 238–388

## HOrder/Props.lean

* `Scotch.HOrder.exCpIn`: hgraph_order_cc.c:180
* `Scotch.HOrder.exIso`: hgraph_order_cp.c:478–489; hgraph_order_bl.c:161
* `Scotch.HOrder.exIsoV`: hgraph_order_bl.c:188–193
* `Scotch.HOrder.exLeaf`: hall_order_hd.c:498; hall_order_hf.c:844
* `Scotch.HOrder.exIf`: hgraph_order_nd.c:178
* `Scotch.HOrder.exP`: hgraph_order_st.c:294–297; library_graph_order.c:278–281

## Kmap/Model.lean

* `Scotch.Kmap.Mapping`: mapping.h:78–92
* `Scotch.Kmap.mapResize`: mapping.c:172–189
* `Scotch.Kmap.fill0`: mapping.c:203; kgraph_map_rb_part.c:141
* `Scotch.Kmap.mapFrst`: mapping.c:196–204
* `Scotch.Kmap.mapTerm`: mapping.c:491–496
* `Scotch.Kmap.Split`: kgraph_map_rb_part.h:71–84
* `Scotch.Kmap.orgNum`: kgraph_map_rb_part.c:140–189
* `Scotch.Kmap.part3Write`: kgraph_map_rb_part.c:133–190
* `Scotch.Kmap.part3`: kgraph_map_rb_part.c:99–193
* `Scotch.Kmap.indGraph`: kgraph_map_rb_part.c:243–251
* `Scotch.Kmap.part2`: kgraph_map_rb_part.c:205–339
* `Scotch.Kmap.rbPart`: kgraph_map_rb_part.c:351–398
* `Scotch.Kmap.Job`: kgraph_map_rb_map.h:76–90
* `Scotch.Kmap.Pool`: kgraph_map_rb_map.h:96–111
* `Scotch.Kmap.Flags`: kgraph_map_rb.h:95–101
* `Scotch.Kmap.poolSwap`: kgraph_map_rb_map.c:222–235
* `Scotch.Kmap.poolAdd`: kgraph_map_rb_map.c:327–337, 574, 686
* `Scotch.Kmap.poolResize`: kgraph_map_rb_map.c:248–310
* `Scotch.Kmap.wr1`: kgraph_map_rb_map.c:1007
* `Scotch.Kmap.partBoth`: kgraph_map_rb_map.c:764–805
* `Scotch.Kmap.partOne`: kgraph_map_rb_map.c:809–850
* `Scotch.Kmap.jobSame`: kgraph_map_rb_map.c:978–992
* `Scotch.Kmap.jobSub`: kgraph_map_rb_map.c:1017–1045
* `Scotch.Kmap.partUpd`: kgraph_map_rb_map.c:1010–1020
* `Scotch.Kmap.jobSplit`: kgraph_map_rb_map.c:995–1052
* `Scotch.Kmap.jobRun`: kgraph_map_rb_map.c:933–1054
* `Scotch.Kmap.poolGet`: kgraph_map_rb_map.c:348–370
* `Scotch.Kmap.poolStep`: kgraph_map_rb_map.c:924–1058
* `Scotch.Kmap.poolExit`: kgraph_map_rb_map.c:188–212
* `Scotch.Kmap.rbMap`: kgraph_map_rb_map.c:867–1063
* `Scotch.Kmap.hashSize`: kgraph_map_rb.c:242–243, 468–469
* `Scotch.Kmap.vfloPrime`: kgraph_map_rb.h:77
* `Scotch.Kmap.hashFind`: kgraph_map_rb.c:268–278, 482–490, 514–531
* `Scotch.Kmap.fixBody`: kgraph_map_rb.c:257–283
* `Scotch.Kmap.fixPack`: kgraph_map_rb.c:298–303
* `Scotch.Kmap.fixHashNbr`: kgraph_map_rb.c:234–241
* `Scotch.Kmap.vfloBuild`: kgraph_map_rb.c:212–309
* `Scotch.Kmap.mergeDom`: kgraph_map_rb.c:478–491
* `Scotch.Kmap.mergeNew`: kgraph_map_rb.c:518–529
* `Scotch.Kmap.mergeVert`: kgraph_map_rb.c:493–533
* `Scotch.Kmap.vfloMerge`: kgraph_map_rb.c:449–539
* `Scotch.Kmap.kgraphFron`: kgraph.c:334–362
* `Scotch.Kmap.costArc`: kgraph.c:259–284
* `Scotch.Kmap.costVert`: kgraph.c:238–285
* `Scotch.Kmap.kgraphCost`: kgraph.c:212–325
* `Scotch.Kmap.Kgraph`: kgraph.h:98–119
* `Scotch.Kmap.rbGraph`: kgraph_map_rb.c:143–155
* `Scotch.Kmap.rbMerge`: kgraph_map_rb.c:159–167
* `Scotch.Kmap.mapRb`: kgraph_map_rb.c:109–193; mapping.c:97–163; kgraph.c:121
* `Scotch.Kmap.mapCompute2`: library_graph_map.c:148–302
* `Scotch.Kmap.graphMap`: library_graph_map.c:313–319
* `Scotch.Kmap.graphMapFixed`: library_graph_map.c:331–337, 369–390
* `Scotch.Kmap.gpBip`: kgraph_map_rb.c:557–603; kgraph_map_rb_part.c:253–275
* `Scotch.Kmap.graphPart`: library_graph_map.c:519–534; arch.c:102
* `Scotch.Kmap.graphPartFixed`: library_graph_map.c:545–561

## Kmap/ModelChk.lean

* `Scotch.Kmap.mapCheckPart`: mapping_check.c:125–131
* `Scotch.Kmap.mapCheck`: mapping_check.c:70–143
* `Scotch.Kmap.fixStep`: kgraph_check.c:133–150
* `Scotch.Kmap.fixCount`: kgraph_check.c:131–151
* `Scotch.Kmap.fronStep`: kgraph_check.c:168–187
* `Scotch.Kmap.fronFlags`: kgraph_check.c:157–188
* `Scotch.Kmap.cutArc`: kgraph_check.c:204–211
* `Scotch.Kmap.sumStep`: kgraph_check.c:197–219
* `Scotch.Kmap.checkSums`: kgraph_check.c:190–232
* `Scotch.Kmap.kcheck`: kgraph_check.c:77–240

## Kmap/ModelSt.lean

* `Scotch.Kmap.KState`: kgraph.h:98–119; kgraph_map_st.c:345, 356
* `Scotch.Kmap.KStore`: kgraph.h:123–134
* `Scotch.Kmap.storeInit`: kgraph_store.c:77–94
* `Scotch.Kmap.storeSave`: kgraph_store.c:122–145
* `Scotch.Kmap.storeUpdt`: kgraph_store.c:154–182
* `Scotch.Kmap.scan`: kgraph_map_st.c:340–348, 351–359
* `Scotch.Kmap.keepSecond`: kgraph_map_st.c:361–378
* `Scotch.Kmap.selKeep`: kgraph_map_st.c:335–381
* `Scotch.Kmap.selEnd`: kgraph_map_st.c:335–383
* `Scotch.Kmap.mapSt`: kgraph_map_st.c:261–402

## MapIO/Model.lean

* `Scotch.MapIO.saveLine`: library_graph_map_io.c:216–218
* `Scotch.MapIO.tabSave`: library_graph_map_io.c:199–225
* `Scotch.MapIO.Tab`: 110–112
* `Scotch.MapIO.Tab.put`: library_graph_map_io.c:127–132, 153–158
* `Scotch.MapIO.readLine`: library_graph_map_io.c:120–132
* `Scotch.MapIO.sortIf`: library_graph_map_io.c:134–135, 160–161
* `Scotch.MapIO.dupBody`: library_graph_map_io.c:138–142
* `Scotch.MapIO.vertBody`: library_graph_map_io.c:153–158
* `Scotch.MapIO.skipBody`: library_graph_map_io.c:164–168
* `Scotch.MapIO.assign`: library_graph_map_io.c:169–170
* `Scotch.MapIO.mergeBody`: library_graph_map_io.c:164–170
* `Scotch.MapIO.directBody`: library_graph_map_io.c:180–182
* `Scotch.MapIO.finish`: library_graph_map_io.c:145–184
* `Scotch.MapIO.sortNbr`: library_graph_map_io.c:109
* `Scotch.MapIO.process`: library_graph_map_io.c:134–188
* `Scotch.MapIO.tabLoad`: library_graph_map_io.c:78–189

## Match/Model.lean

* `Scotch.Match.Env`: graph_coarsen.h:146–164; graph_match.c:208–209
* `Scotch.Match.sameTax`: graph_match_scan.c:134–135, 158–159
* `Scotch.Match.compatible`: graph_match_scan.c:133–136, 157–160
* `Scotch.Match.trimEnd`: graph_match_scan.c:123–125
* `Scotch.Match.isoLoop`: graph_match_scan.c:127–147
* `Scotch.Match.nbrTest`: graph_match_scan.c:154–164
* `Scotch.Match.nbrLoop`: graph_match_scan.c:151–172
* `Scotch.Match.nndAfter`: graph_match_scan.c:139–143
* `Scotch.Match.findMate`: graph_match_scan.c:115–173
* `Scotch.Match.seqStep`: graph_match_scan.c:102–192
* `Scotch.Match.scanSeq`: graph_match_scan.c:71–197
* `Scotch.Match.queueSort`: graph_match.c:156–178
* `Scotch.Match.matchSeq`: graph_match.c:287–377
* `Scotch.Match.Thr`: graph_match_scan.c:102–113
* `Scotch.Match.thrStep`: graph_match.c:304
* `Scotch.Match.sysInit`: graph_match.c:298–335; graph_match_scan.c:99–101
* `Scotch.Match.finish`: graph_match.c:339–348

## Memory/Model.lean

* `Scotch.Memory.align`: common_memory.c:502, 517, 552, 563, 595
* `Scotch.Memory.total`: common_memory.c:498–506
* `Scotch.Memory.place`: common_memory.c:513–522, 560–567
* `Scotch.Memory.allocGroup`: common_memory.c:488–525
* `Scotch.Memory.offset`: common_memory.c:583–602
* `Scotch.Memory.State`: common_memory.c:277–278
* `Scotch.Memory.State.count`: common_memory.c:307–309, 355–357
* `Scotch.Memory.State.alloc`: common_memory.c:292–324
* `Scotch.Memory.State.realloc`: common_memory.c:333–372
* `Scotch.Memory.State.free`: common_memory.c:380–405
* `Scotch.Memory.State.memCur`: common_memory.c:414–430
* `Scotch.Memory.State.memMax`: common_memory.c:439–455

## Mesh/Check.lean

* `Scotch.Mesh.checkReverse`: mesh_check.c:128–141
* `Scotch.Mesh.checkArc`: mesh_check.c:112–142
* `Scotch.Mesh.checkVert`: mesh_check.c:97–142
* `Scotch.Mesh.checkElems`: mesh_check.c:94–143
* `Scotch.Mesh.checkNodes`: mesh_check.c:149–191
* `Scotch.Mesh.checkLoads`: mesh_check.c:193–204
* `Scotch.Mesh.checkEnd`: mesh_check.c:193–232
* `Scotch.Mesh.check`: mesh_check.c:72–233

## Mesh/Model.lean

* `Scotch.Mesh`: mesh.h:105–126
* `Scotch.Mesh.hashPrime`: mesh_graph.h:55
* `Scotch.Mesh.sizeLoop`: mesh_graph.c:111–112, 253–254
* `Scotch.Mesh.hashSize`: mesh_graph.c:111–112, 253–254
* `Scotch.Mesh.hashStart`: mesh_graph.c:154, 170, 290, 308
* `Scotch.Mesh.grow`: mesh_graph.c:172–188, 323–339
* `Scotch.Mesh.mkGraph`: mesh_graph.c:106–109, 122–129, 206–208
* `Scotch.Mesh.Cell`: mesh_graph.h:65–68
* `Scotch.Mesh.testSlot`: mesh_graph.c:171, 195
* `Scotch.Mesh.nodeBody`: mesh_graph.c:168–197
* `Scotch.Mesh.elemBody`: mesh_graph.c:162–198
* `Scotch.Mesh.vertBody`: mesh_graph.c:147–202
* `Scotch.Mesh.toGraph`: mesh_graph.c:91–220
* `Scotch.Mesh.DCell`: mesh_graph.h:70–74
* `Scotch.Mesh.testSlotD`: mesh_graph.c:311, 318
* `Scotch.Mesh.addEdge`: mesh_graph.c:322–342
* `Scotch.Mesh.newElem`: mesh_graph.c:312–316
* `Scotch.Mesh.oldElem`: mesh_graph.c:319–343
* `Scotch.Mesh.elemBodyD`: mesh_graph.c:303–346
* `Scotch.Mesh.nodeBodyD`: mesh_graph.c:297–347
* `Scotch.Mesh.vertBodyD`: mesh_graph.c:282–350
* `Scotch.Mesh.toDual`: mesh_graph.c:232–368

## Mesh/ModelMetis.lean

* `Scotch.Mesh.Metis.CState`: metis_graph_dual.c:135–151
* `Scotch.Mesh.Metis.countNode`: metis_graph_dual.c:150
* `Scotch.Mesh.Metis.countElem`: metis_graph_dual.c:137–151
* `Scotch.Mesh.Metis.copyElems`: metis_graph_dual.c:155–163
* `Scotch.Mesh.Metis.NState`: metis_graph_dual.c:165–174
* `Scotch.Mesh.Metis.scanNode`: metis_graph_dual.c:165–174
* `Scotch.Mesh.Metis.shiftNode`: metis_graph_dual.c:186–187
* `Scotch.Mesh.Metis.addElem`: metis_graph_dual.c:193
* `Scotch.Mesh.Metis.addElems`: metis_graph_dual.c:189–194
* `Scotch.Mesh.Metis.moveUp`: metis_graph_dual.c:196
* `Scotch.Mesh.Metis.vert0`: metis_graph_dual.c:126–131
* `Scotch.Mesh.Metis.mkMesh`: metis_graph_dual.c:113–124, 132–133, 153, 176, 184
* `Scotch.Mesh.Metis.build`: metis_graph_dual.c:72–200
* `Scotch.Mesh.Metis.copyOut`: metis_graph_dual.c:255–256
* `Scotch.Mesh.Metis.meshToDual`: metis_graph_dual.c:207–260

## Msep/Model.lean

* `Scotch.Msep.Vmesh`: vmesh.h:59–71
* `Scotch.Msep.zero`: vmesh.c:93–108
* `Scotch.Msep.separateZr`: vmesh_separate_zr.c:73–81
* `Scotch.Msep.elemPart`: vmesh_separate_gr.c:132–142
* `Scotch.Msep.elemParts`: vmesh_separate_gr.c:127–145
* `Scotch.Msep.addFron`: vmesh_separate_gr.c:102–103, 117–118
* `Scotch.Msep.toVgraph`: vmesh_separate_gr.c:90–100
* `Scotch.Msep.fromVgraph`: vmesh_separate_gr.c:117–156
* `Scotch.Msep.separateGr`: vmesh_separate_gr.c:75–157
* `Scotch.Msep.cuts`: vmesh_check.c:116–121, 154–159
* `Scotch.Msep.other`: vmesh_check.c:123, 173
* `Scotch.Msep.checkElem`: vmesh_check.c:98–127
* `Scotch.Msep.rdVnlo`: vmesh_check.c:152
* `Scotch.Msep.checkNode`: vmesh_check.c:140–178
* `Scotch.Msep.checkFron`: vmesh_check.c:202–221
* `Scotch.Msep.check`: vmesh_check.c:74–229

## Msep/ModelHalo.lean

* `Scotch.Msep.Hmesh`: hmesh.h:84–94
* `Scotch.Msep.meshBase`: hmesh_mesh.c:85–99
* `Scotch.Msep.meshElems`: hmesh_mesh.c:111–122
* `Scotch.Msep.meshNodes`: hmesh_mesh.c:123–136
* `Scotch.Msep.hmeshMesh`: hmesh_mesh.c:80–147

## Msep/ModelHchk.lean

* `Scotch.Msep.hchkElem`: hmesh_check.c:97–103
* `Scotch.Msep.hchkElems`: hmesh_check.c:91–105
* `Scotch.Msep.hchkSum`: hmesh_check.c:111–119
* `Scotch.Msep.hmeshCheck`: hmesh_check.c:73–126

## Msep/ModelInduce.lean

* `Scotch.Msep.numNode`: hmesh_induce.c:176–184
* `Scotch.Msep.numNodes`: hmesh_induce.c:172–185
* `Scotch.Msep.indArc`: hmesh_induce.c:232–258
* `Scotch.Msep.indElem`: hmesh_induce.c:200–275
* `Scotch.Msep.indElems`: hmesh_induce.c:194–276
* `Scotch.Msep.indNode`: hmesh_induce.c:305–321
* `Scotch.Msep.indHalo`: hmesh_induce.c:332–344
* `Scotch.Msep.indEdges`: hmesh_induce.c:125–126
* `Scotch.Msep.indVnum`: hmesh_induce.c:357–360
* `Scotch.Msep.indInit`: hmesh_induce.c:118–170
* `Scotch.Msep.indMesh`: hmesh_induce.c:128–158, 284–296, 324–326
* `Scotch.Msep.hmeshInducePart`: hmesh_induce.c:89–374

## Msep/ModelSi.lean

* `Scotch.Msep.orderSi`: hmesh_order_si.c:72–109

## Msep/ModelSt.lean

* `Scotch.Msep.Store`: vmesh.h:74–81
* `Scotch.Msep.storeSave`: vmesh_store.c:72–87, 112–135
* `Scotch.Msep.storeUpdt`: vmesh_store.c:143–169
* `Scotch.Msep.MStrat`: vmesh_separate_st.c:102–111
* `Scotch.Msep.selBest`: vmesh_separate_st.c:271–274
* `Scotch.Msep.separateSt`: vmesh_separate_st.c:200–293

## Order/IO.lean

* `Scotch.orderLoadLine`: order_io.c:103–117
* `Scotch.orderLoad`: order_io.c:78–124
* `Scotch.orderSaveLine`: order_io.c:156–164, 167–175
* `Scotch.orderSave`: order_io.c:133–180
* `Scotch.BlockSt`: order_io.c:219–224, 280–285
* `Scotch.nextBlock`: order_io.c:221–222
* `Scotch.blockLine`: order_io.c:226–234, 287–295
* `Scotch.orderSaveMap`: order_io.c:190–238
* `Scotch.orderSaveTree`: order_io.c:248–299

## Order/Model.lean

* `Scotch.orderPeri`: src/libscotch/order.c:159–171
* `Scotch.ORDERCBLKNEDI`: src/libscotch/order.h:88–92
* `Scotch.Cblk`: src/libscotch/order.h:108–113
* `Scotch.Order`: src/libscotch/order.h:124–135
* `Scotch.orderCheck2`: src/libscotch/order_check.c:72–125
* `Scotch.orderCheck2Sons`: order_check.c:103–107
* `Scotch.orderCheck`: src/libscotch/order_check.c:127–193
* `Scotch.orderRang2`: src/libscotch/order.c:193–223
* `Scotch.orderRang2Sons`: order.c:216–217
* `Scotch.orderRang`: src/libscotch/order.c:179–191
* `Scotch.orderTree2`: src/libscotch/order.c:247–313
* `Scotch.orderTree2Nth`: order.c:281
* `Scotch.orderTree2Par`: order.c:287–293
* `Scotch.orderTree2Seq`: order.c:296–304
* `Scotch.orderTree`: src/libscotch/order.c:231–245

## Ovl/Model.lean

* `Scotch.Ovl.Wgraph`: wgraph.h:62–73
* `Scotch.Ovl.zero`: wgraph.c:145–157
* `Scotch.Ovl.costArc`: wgraph.c:213–219
* `Scotch.Ovl.costVertex`: wgraph.c:197–221
* `Scotch.Ovl.cost`: wgraph.c:166–228
* `Scotch.Ovl.Store`: wgraph.h:77–82
* `Scotch.Ovl.storeInit`: wgraph_store.c:75–91
* `Scotch.Ovl.storeSave`: wgraph_store.c:114–137
* `Scotch.Ovl.storeUpdt`: wgraph_store.c:145–173
* `Scotch.Ovl.partZr`: wgraph_part_zr.c:78–86
* `Scotch.Ovl.orgNum`: wgraph_part_rb.c:107–112, 153–170, 203–220, 250–265
* `Scotch.Ovl.Shared`: wgraph_part_rb.h:68–77
* `Scotch.Ovl.Act.run`: wgraph_part_rb.c:84–113
* `Scotch.Ovl.Split`: wgraph_part_rb.h:81–95
* `Scotch.Ovl.rbInduce`: wgraph_part_rb.c:306–316
* `Scotch.Ovl.rbGraph`: wgraph_part_rb.c:306–332
* `Scotch.Ovl.rbFirst`: wgraph_part_rb.c:297–304
* `Scotch.Ovl.rb2`: wgraph_part_rb.c:275–398
* `Scotch.Ovl.partRb`: wgraph_part_rb.c:408–464

## Ovl/ModelChk.lean

* `Scotch.Ovl.chkVertex`: wgraph_check.c:135–165
* `Scotch.Ovl.chkPart`: wgraph_check.c:108–118
* `Scotch.Ovl.chkFron`: wgraph_check.c:124–132
* `Scotch.Ovl.chkSums`: wgraph_check.c:168–177
* `Scotch.Ovl.check`: wgraph_check.c:79–193

## Ovl/ModelEs.lean

* `Scotch.Ovl.esVertex`: wgraph_part_es.c:119–123
* `Scotch.Ovl.esFron`: wgraph_part_es.c:130–141
* `Scotch.Ovl.esArc`: wgraph_part_es.c:152–164
* `Scotch.Ovl.esBack`: wgraph_part_es.c:145–165
* `Scotch.Ovl.partEs`: wgraph_part_es.c:70–181

## Ovl/ModelSt.lean

* `Scotch.Ovl.alloc`: wgraph.c:116–137
* `Scotch.Ovl.mlCoarsen`: wgraph_part_ml.c:107–113
* `Scotch.Ovl.mlStep`: wgraph_part_ml.c:190–210
* `Scotch.Ovl.PartList`: wgraph_part_ml.h:65–68
* `Scotch.Ovl.mlArc`: wgraph_part_ml.c:231–241
* `Scotch.Ovl.mlWalk`: wgraph_part_ml.c:245–249
* `Scotch.Ovl.mlVertex`: wgraph_part_ml.c:215–251
* `Scotch.Ovl.mlUncoarsen`: wgraph_part_ml.c:162–263
* `Scotch.Ovl.mlUp`: wgraph_part_ml.c:282–286
* `Scotch.Ovl.partMl2`: wgraph_part_ml.c:271–295
* `Scotch.Ovl.selEnd`: wgraph_part_st.c:260–263
* `Scotch.Ovl.partSt`: wgraph_part_st.c:188–282
* `Scotch.Ovl.graphPartOvl`: library_graph_part_ovl.c:80–125

## Ovl/Props.lean

* `Scotch.Ovl.exSub`: wgraph_part_rb.c:300
* `Scotch.Ovl.key`: wgraph_part_rb.c:183–266; library_graph_part_ovl.c:104–121

## Rand/Model.lean

* `Scotch.Rand.State`: src/libscotch/common.h:283–285
* `Scotch.Rand.Ctx`: src/libscotch/common.h:289–294
* `Scotch.Rand.proc`: common_integer.c:208–214
* `Scotch.Rand.seed2`: common_integer.c:222–235
* `Scotch.Rand.reset`: common_integer.c:237–247
* `Scotch.Rand.seed`: common_integer.c:249–256
* `Scotch.Rand.spawn`: common_integer.c:272–283
* `Scotch.Rand.init`: common_integer.c:298–310
* `Scotch.Rand.stepState`: common_integer.c:424–435
* `Scotch.Rand.val3`: common_integer.c:419–436
* `Scotch.Rand.val`: common_integer.c:445–458
* `Scotch.Rand.val2`: common_integer.c:460–465
* `Scotch.Rand.save`: common_integer.c:370–409
* `Scotch.Rand.load2`: common_integer.c:319–332
* `Scotch.Rand.load`: common_integer.c:334–361
* `Scotch.Rand.intAscn`: common_integer.c:147–160
* `Scotch.Rand.intPermLoop`: common_integer.c:177–188
* `Scotch.Rand.intPerm`: common_integer.c:168–189
* `Scotch.Rand.dataSize`: src/libscotch/common.h:501
* `Scotch.Rand.dataScan`: src/libscotch/common.h:502
* `Scotch.Rand.gcdLoop`: common_integer.c:605–609
* `Scotch.Rand.intGcd`: common_integer.c:592–612

## Separ/Model.lean

* `Scotch.Separ.Vgraph`: src/libscotch/vgraph.h:74–85
* `Scotch.Separ.zero`: vgraph.c:98–111
* `Scotch.Separ.separateZr`: vgraph_separate_zr.c:75–83
* `Scotch.Separ.countArcs`: vgraph_separate_th.c:93–97
* `Scotch.Separ.checkParts`: vgraph_check.c:89–94
* `Scotch.Separ.checkFron`: vgraph_check.c:101–113
* `Scotch.Separ.checkArcs`: vgraph_check.c:138–148
* `Scotch.Separ.checkVertex`: vgraph_check.c:121–167
* `Scotch.Separ.checkSums`: vgraph_check.c:169–186
* `Scotch.Separ.check`: vgraph_check.c:79–187
* `Scotch.Separ.Store`: vgraph.h:89–95
* `Scotch.Separ.storeInit`: vgraph_store.c:75–90
* `Scotch.Separ.storeSave`: vgraph_store.c:113–132
* `Scotch.Separ.storeUpdt`: vgraph_store.c:140–166
* `Scotch.Separ.thinStep`: vgraph_separate_th.c:88–113
* `Scotch.Separ.separateTh`: vgraph_separate_th.c:73–119
* `Scotch.Separ.rebuild`: vgraph_separate_gp.c:214–228; vgraph_separate_gg.c:284–298
* `Scotch.Separ.finish`: vgraph_separate_gp.c:207–228; vgraph_separate_gg.c:282–298

## Separ/ModelBd.lean

* `Scotch.Separ.bdFirst`: vgraph_separate_bd.c:125–150
* `Scotch.Separ.bdArc`: vgraph_separate_bd.c:181–198
* `Scotch.Separ.bdVert`: vgraph_separate_bd.c:167–199
* `Scotch.Separ.bdStep`: vgraph_separate_bd.c:154–200
* `Scotch.Separ.bdLoads`: vgraph_separate_bd.c:204–207
* `Scotch.Separ.bdSearch`: vgraph_separate_bd.c:109–207
* `Scotch.Separ.bdIndexIn`: vgraph_separate_bd.c:217–225
* `Scotch.Separ.bdIndexOut`: vgraph_separate_bd.c:226–227
* `Scotch.Separ.bdIndex`: vgraph_separate_bd.c:215–227
* `Scotch.Separ.bdArcIn`: vgraph_separate_bd.c:271–283
* `Scotch.Separ.bdVertIn`: vgraph_separate_bd.c:262–288
* `Scotch.Separ.bdArcOut`: vgraph_separate_bd.c:300–315
* `Scotch.Separ.bdAnchor`: vgraph_separate_bd.c:318–325
* `Scotch.Separ.bdVertOut`: vgraph_separate_bd.c:290–326
* `Scotch.Separ.bdBack`: vgraph_separate_bd.c:343–356
* `Scotch.Separ.bdVerts`: vgraph_separate_bd.c:229–326
* `Scotch.Separ.bdDegr`: vgraph_separate_bd.c:366–369
* `Scotch.Separ.bdClose`: vgraph_separate_bd.c:327–371
* `Scotch.Separ.bdBuild`: vgraph_separate_bd.c:215–388
* `Scotch.Separ.bdBring`: vgraph_separate_bd.c:416–427
* `Scotch.Separ.bdRun`: vgraph_separate_bd.c:401–439
* `Scotch.Separ.separateBd`: vgraph_separate_bd.c:75–440

## Separ/ModelDf.lean

* `Scotch.Separ.sdEdls`: vgraph_separate_df.c:125–144
* `Scotch.Separ.sdVanc`: vgraph_separate_df.c:157–165
* `Scotch.Separ.sdInit`: vgraph_separate_df.c:167–174
* `Scotch.Separ.sdAbsorb`: vgraph_separate_df.c:205–214
* `Scotch.Separ.sdDiff`: vgraph_separate_df.c:191–214
* `Scotch.Separ.sdMove`: vgraph_separate_df.c:183–224
* `Scotch.Separ.sdMoves`: vgraph_separate_df.c:179–230
* `Scotch.Separ.sdParts`: vgraph_separate_df.c:232–233
* `Scotch.Separ.sdNear`: vgraph_separate_df.c:259–266
* `Scotch.Separ.sdVert`: vgraph_separate_df.c:251–267
* `Scotch.Separ.sdPassEnd`: vgraph_separate_df.c:244–277
* `Scotch.Separ.sdPass`: vgraph_separate_df.c:150–277
* `Scotch.Separ.separateDf`: vgraph_separate_df.c:89–290

## Separ/ModelEs.lean

* `Scotch.Separ.esHC`: vgraph_separate_es.h:85–91
* `Scotch.Separ.esMate`: vgraph_separate_es.c:174–185
* `Scotch.Separ.esMatch`: vgraph_separate_es.c:168–186
* `Scotch.Separ.esArc`: vgraph_separate_es.c:217–228
* `Scotch.Separ.esColumn`: vgraph_separate_es.c:207–230
* `Scotch.Separ.esQueue`: vgraph_separate_es.c:189–202
* `Scotch.Separ.esAugment`: vgraph_separate_es.c:360–393
* `Scotch.Separ.esPass`: vgraph_separate_es.c:189–237
* `Scotch.Separ.esMark`: vgraph_separate_es.c:405–432
* `Scotch.Separ.esTypes`: vgraph_separate_es.c:243–252
* `Scotch.Separ.esLoads`: vgraph_separate_es.c:254–287
* `Scotch.Separ.esList`: vgraph_separate_es.c:295–309, 323–337
* `Scotch.Separ.esChoose`: vgraph_separate_es.c:254–344
* `Scotch.Separ.esCover`: vgraph_separate_es.c:120–349
* `Scotch.Separ.EsNum`: vgraph_separate_es.c:530–550
* `Scotch.Separ.esDegree`: vgraph_separate_es.c:541–545
* `Scotch.Separ.EsBip`: vgraph_separate_es.c:587–632
* `Scotch.Separ.esBipArc`: vgraph_separate_es.c:614–630
* `Scotch.Separ.esBipVelo`: vgraph_separate_es.c:599–605
* `Scotch.Separ.esBipVertex`: vgraph_separate_es.c:594–631
* `Scotch.Separ.esBipart`: vgraph_separate_es.c:530–636
* `Scotch.Separ.esThinVertex`: vgraph_separate_es.c:668–678, 688–694
* `Scotch.Separ.esThin`: vgraph_separate_es.c:521–704
* `Scotch.Separ.esFatVertex`: vgraph_separate_es.c:724–731, 741–745
* `Scotch.Separ.esFat`: vgraph_separate_es.c:711–755
* `Scotch.Separ.esFrontier`: vgraph_separate_es.c:505–757
* `Scotch.Separ.esActive`: vgraph_separate_es.c:486–492
* `Scotch.Separ.separateEs`: vgraph_separate_es.c:478–771

## Separ/ModelFm.lean

* `Scotch.Separ.linkSide`: vgraph_separate_fm.c:121–126, 380–384
* `Scotch.Separ.sfDelta`: vgraph_separate_fm.c:132, 401
* `Scotch.Separ.sfTabl`: vgraph_separate_fm.c:116–141
* `Scotch.Separ.sfInitVals`: vgraph_separate_fm.c:244–287
* `Scotch.Separ.sfInsert`: vgraph_separate_fm.c:234–292
* `Scotch.Separ.sfSave`: vgraph_separate_fm.c:403–410, 448–455, 474–481, 515–522
* `Scotch.Separ.sfChain`: vgraph_separate_fm.c:457–468, 525–536
* `Scotch.Separ.sfMeet`: vgraph_separate_fm.c:448–468
* `Scotch.Separ.sfArcEnd`: vgraph_separate_fm.c:492–542
* `Scotch.Separ.sfEnterVals`: vgraph_separate_fm.c:483–485
* `Scotch.Separ.sfEnter`: vgraph_separate_fm.c:474–548
* `Scotch.Separ.sfNew`: vgraph_separate_fm.c:434–438
* `Scotch.Separ.sfArc`: vgraph_separate_fm.c:419–552
* `Scotch.Separ.sfUnchain`: vgraph_separate_fm.c:566–578
* `Scotch.Separ.sfMove`: vgraph_separate_fm.c:391–579
* `Scotch.Separ.sfRoom`: vgraph_separate_fm.c:587–592
* `Scotch.Separ.sfCompare`: vgraph_separate_fm.c:596–620
* `Scotch.Separ.sfRange`: vgraph_separate_fm.c:622–637
* `Scotch.Separ.sfStep`: vgraph_separate_fm.c:373–637
* `Scotch.Separ.sfUnlock`: vgraph_separate_fm.c:352–366
* `Scotch.Separ.sfPass`: vgraph_separate_fm.c:312–638
* `Scotch.Separ.sfPasses`: vgraph_separate_fm.c:311, 639–640
* `Scotch.Separ.sfRestoreEnd`: vgraph_separate_fm.c:646–648
* `Scotch.Separ.sfWritePart`: vgraph_separate_fm.c:663–669
* `Scotch.Separ.sfWriteFron`: vgraph_separate_fm.c:670–671
* `Scotch.Separ.sfWrite`: vgraph_separate_fm.c:658–672
* `Scotch.Separ.sfFinish`: vgraph_separate_fm.c:642–680
* `Scotch.Separ.sfMain`: vgraph_separate_fm.c:208–692
* `Scotch.Separ.separateFm`: vgraph_separate_fm.c:153–693

## Separ/ModelGg.lean

* `Scotch.Separ.ggArc2`: vgraph_separate_gg.c:219–231
* `Scotch.Separ.ggArc`: vgraph_separate_gg.c:201–234
* `Scotch.Separ.ggLink`: vgraph_separate_gg.c:236–240
* `Scotch.Separ.ggStep`: vgraph_separate_gg.c:175–241
* `Scotch.Separ.ggGain`: vgraph_separate_gg.c:159–170
* `Scotch.Separ.ggSeed`: vgraph_separate_gg.c:152–173
* `Scotch.Separ.ggScan`: vgraph_separate_gg.c:255–260
* `Scotch.Separ.ggRoot`: vgraph_separate_gg.c:147–261
* `Scotch.Separ.ggPass`: vgraph_separate_gg.c:139–261
* `Scotch.Separ.ggParts`: vgraph_separate_gg.c:272–273
* `Scotch.Separ.ggDraw`: vgraph_separate_gg.c:145
* `Scotch.Separ.ggTry`: vgraph_separate_gg.c:136–275
* `Scotch.Separ.separateGg`: vgraph_separate_gg.c:90–308

## Separ/ModelGp.lean

* `Scotch.Separ.gpSepar`: vgraph_separate_gp.c:173–175, 200–202
* `Scotch.Separ.gpGrowArc`: vgraph_separate_gp.c:190–204
* `Scotch.Separ.gpGrowStep`: vgraph_separate_gp.c:177–205
* `Scotch.Separ.gpRootStep`: vgraph_separate_gp.c:118–206
* `Scotch.Separ.gpMain`: vgraph_separate_gp.c:107–237
* `Scotch.Separ.separateGp`: vgraph_separate_gp.c:80–238

## Separ/ModelSt.lean

* `Scotch.Separ.mlCoarsen`: vgraph_separate_fm.c:190–193; vgraph_separate_ml.c:92–114
* `Scotch.Separ.mlStep`: vgraph_separate_ml.c:160–184
* `Scotch.Separ.mlUncoarsen`: vgraph_separate_ml.c:149–196
* `Scotch.Separ.mlUp`: vgraph_separate_ml.c:220–224
* `Scotch.Separ.separateMl2`: vgraph_separate_ml.c:210–234
* `Scotch.Separ.selFirst`: vgraph_separate_st.c:303–310
* `Scotch.Separ.separateSt`: vgraph_separate_st.c:235–337; vgraph_separate_vw.c:82–111

## Separ/PropsFm.lean

* `Scotch.Separ.exF`: vgraph_separate_fm.c:121–126

## Separ/PropsSt.lean

* `Scotch.Separ.exSm`: vgraph_separate_df.c:173

## Sort/Model.lean

* `Scotch.Sorting.maxThresh`: src/libscotch/common_sort.c:48
* `Scotch.Sorting.swap`: src/libscotch/common_integer.c:483
* `Scotch.Sorting.swapIfLt`: common_sort.c:132–133
* `Scotch.Sorting.medianOfThree`: common_sort.c:132–139
* `Scotch.Sorting.scanLeft`: common_sort.c:149–150
* `Scotch.Sorting.scanRight`: common_sort.c:152–153
* `Scotch.Sorting.partStep`: common_sort.c:147–172
* `Scotch.Sorting.push`: common_sort.c:58
* `Scotch.Sorting.small`: common_sort.c:179, 181, 188
* `Scotch.Sorting.nextSegment`: common_sort.c:179–202
* `Scotch.Sorting.quickStep`: common_sort.c:120–203
* `Scotch.Sorting.quickPart`: common_sort.c:110–204
* `Scotch.Sorting.minIndex`: common_sort.c:222–224
* `Scotch.Sorting.insertPlace`: common_sort.c:234–236
* `Scotch.Sorting.insertShift`: common_sort.c:243–252
* `Scotch.Sorting.insertPart`: common_sort.c:212–255
* `Scotch.Sorting.sort`: src/libscotch/common_sort.c:99–256
* `Scotch.Sorting.lt1`: src/libscotch/common_integer.c:484
* `Scotch.Sorting.lt2asc1`: src/libscotch/common_integer.c:501
* `Scotch.Sorting.lt2asc2`: src/libscotch/common_integer.c:519
* `Scotch.Sorting.lt3asc1`: src/libscotch/common_integer.c:536
* `Scotch.Sorting.lt3asc2`: src/libscotch/common_integer.c:554

## Sort/Partial.lean

* `Scotch.Sorting.pushL`: common_psort.c:59
* `Scotch.Sorting.pickSegment`: common_psort.c:185–208
* `Scotch.Sorting.nextSegmentL`: common_psort.c:178–208
* `Scotch.Sorting.psortStep`: common_psort.c:118–209
* `Scotch.Sorting.psort`: common_psort.c:101–211; common_integer.c:574–578

## Str/Model.lean

* `Scotch.Str.subst2`: common_string.c:63–90
* `Scotch.Str.stringSubst`: common_string.c:92–105

## TextIO/Model.lean

* `Scotch.Text.intLoadStart`: src/libscotch/common_integer.c:88–104
* `Scotch.Text.intLoadDigits`: src/libscotch/common_integer.c:108–115
* `Scotch.Text.intLoad`: src/libscotch/common_integer.c:78–119
* `Scotch.Text.printInt`: src/libscotch/common_integer.c:127–133

## Thread/Barrier.lean

* `Scotch.Thread.init`: common_thread.c:122–123

## Thread/Collective.lean

* `Scotch.Thread.reduceLoop`: common_thread.c:424–443
* `Scotch.Thread.reduceCan`: common_thread.c:396–446
* `Scotch.Thread.reduceRoot`: common_thread.c:473–480
* `Scotch.Thread.reduceSeq`: common_thread.c:448–485
* `Scotch.Thread.scanLoop`: common_thread.c:523–543
* `Scotch.Thread.scanCan`: common_thread.c:501–546
* `Scotch.Thread.scanRoot`: common_thread.c:567–569
* `Scotch.Thread.scanSeq`: common_thread.c:548–575

## Thread/Pool.lean

* `Scotch.Thread.Pool.enterBar`: common_thread.c:279–297
